import Verif.Proofs.AchRect
import Verif.Proofs.AchTet
import Verif.Proofs.AchTrap
import Verif.Proofs.AchTri
import Verif.Proofs.AchAnn
import Verif.Proofs.AchSeg
import Verif.Proofs.AchCone
import Verif.Proofs.AchPlate
import Verif.Proofs.AchEll
import Verif.Proofs.AchHyp
import Verif.Props.Qlm
import Verif.Proofs.MpcShapes

/-!
# C67-C71: the closed-form inner moments of `newt/qlmACH.py`

The constructors tabulate the moments of solids of given *density* up to degree 5; a larger `LMax`
gets zeros in the higher degrees.
-/

namespace Newt

open MeasureTheory Spec

/-! ## C67: the prisms -/

theorem C67_rect_prism (L : ℕ) (rho x y z : ℝ) (hx : 0 < x) (hy : 0 < y) (hz : 0 < z) :
    QlmACH.rectPrism L rho x y z = .ok (Mom.ofFn L fun l m =>
      if l ≤ 5 then densityInner rho (prism z (rectangle x y)) l m else 0) := by
  rw [QlmACH.rectPrism, if_neg (by push Not; exact ⟨hx, hy, hz⟩),
    table_density _ _ rho _ (Ach.rect_cells rho x y z hx hy hz) (fun l m _ => Ach.rect_high rho x y z l m)]

theorem C67_annulus (L : ℕ) (rho H Ri Ro phic phih : ℝ) (hH : 0 < H) (hRi : 0 ≤ Ri) (hR : Ri < Ro)
    (h0 : 0 < phih) (hpi : phih ≤ Real.pi) :
    QlmACH.annulus L rho H Ri Ro phic phih = .ok (Mom.ofFn L fun l m =>
      if l ≤ 5 then densityInner rho (prism H (sector Ri Ro phic phih)) l m else 0) := by
  rw [QlmACH.annulus, if_neg (by push Not; exact ⟨hR, by linarith, hH, hpi, h0⟩),
    table_density _ _ rho _ (Ach.ann_cells rho H Ri Ro phic phih hH hRi hR.le h0.le hpi)
      (fun l m _ => Ach.ann_high rho H Ri Ro phic phih l m)]

theorem C67_tri_prism (L : ℕ) (rho h d y1 y2 : ℝ) (hh : 0 < h) (hd : d ≠ 0) (hy : y1 ≠ y2) :
    QlmACH.triPrism L rho h d y1 y2 = .ok (Mom.ofFn L fun l m =>
      if l ≤ 5 then densityInner rho (prism h (triangle (d, y1) (d, y2))) l m else 0) := by
  rw [QlmACH.triPrism, if_neg (by push Not; exact ⟨hh, hd, hy⟩),
    table_density _ _ rho _ (Ach.tri_cells rho h d y1 y2 hh hd) (fun l m _ => Ach.tri_high rho h d y1 y2 l m)]

theorem C67_cylindrical_section (L : ℕ) (rho t r d : ℝ) (hd : 0 < d) (hr : d < r) (ht : 0 < t) :
    QlmACH.cylindricalSection L rho t r d = .ok (Mom.ofFn L fun l m =>
      if l ≤ 5 then densityInner rho (prism t (segment r d)) l m else 0) := by
  have hr0 : 0 < r := by linarith
  have hq1 : d / r < 1 := (div_lt_one hr0).2 hr
  have hq0 : 0 < d / r := by positivity
  have hc : r * Real.cos (Real.arccos (d / r)) = d := by
    rw [Real.cos_arccos (by linarith) hq1.le]; field_simp
  have hseg : ∀ l m : ℕ, m ≤ l → l ≤ 5 → QlmACH.segCell rho t r d l m = densityInner rho (prism t (segment r d)) l m := by
    intro l m hm hl
    have := Ach.seg_cells rho t r (Real.arccos (d / r)) ht hr0 (Real.arccos_pos.2 hq1)
      (Real.arccos_lt_pi_div_two.2 hq0) l m hm hl
    rwa [hc] at this
  rw [QlmACH.cylindricalSection, if_neg (by push Not; exact ⟨hd, hr, ht⟩),
    table_density _ _ rho _ hseg (fun l m _ => Ach.seg_high rho t r d l m)]

example : ∃ q, QlmACH.cylindricalSection 3 7 2 5 1 = .ok q ∧ q.get 0 0 = densityInner 7 (prism 2 (segment 5 1)) 0 0 := by
  rw [C67_cylindrical_section 3 7 2 5 1 (by norm_num) (by norm_num) (by norm_num)]
  exact ⟨_, rfl, by rw [Mom.get_ofFn _ (by norm_num) (by norm_num), if_pos (by norm_num)]⟩

example : ∃ q, QlmACH.annulus 7 2 1 1 3 (1 / 2) 1 = .ok q ∧ q.get 6 0 = 0 := by
  rw [C67_annulus 7 2 1 1 3 (1 / 2) 1 (by norm_num) (by norm_num) (by norm_num) (by norm_num)
    (by linarith [Real.pi_gt_three])]
  exact ⟨_, rfl, by rw [Mom.get_ofFn _ (by norm_num) (by norm_num), if_neg (by norm_num)]⟩

/-! ## C68: the other solids that are right -/

theorem C68_tetrahedron (L : ℕ) (rho x y z : ℝ) (hx : 0 < x) (hy : 0 < y) (hz : 0 < z) :
    QlmACH.tetrahedron L rho x y z = .ok (Mom.ofFn L fun l m =>
      if l ≤ 5 then densityInner rho (coneOver z (triangle (x, 0) (0, y))) l m else 0) := by
  rw [QlmACH.tetrahedron, if_neg (by push Not; exact ⟨hx, hy, hz⟩),
    table_density _ _ rho _ (Ach.tet_cells rho x y z hx hy hz) (fun l m _ => Ach.tet_high rho x y z l m)]

theorem C68_pyramid (L : ℕ) (rho h x y : ℝ) (hh : 0 < h) (hx : 0 < x) (hy : 0 < y) :
    QlmACH.pyramid L rho h x y = .ok (Mom.ofFn L fun l m =>
      if l ≤ 5 then densityInner rho (coneOver h (rectangle x y)) l m else 0) := by
  rw [QlmACH.pyramid, if_neg (by push Not; exact ⟨hx, hy, hh⟩),
    table_density _ _ rho _ (Ach.pyr_cells rho h x y hh hx hy) (fun l m _ => Ach.pyr_high rho h x y l m)]

theorem C68_platehole (L : ℕ) (rho t r theta : ℝ) (ht : 0 < t) (hr : 0 < r) (hth : |theta| < Real.pi / 2) :
    QlmACH.platehole L rho t r theta = .ok (Mom.ofFn L fun l m =>
      if l ≤ 5 then densityInner rho (drilledSlab t r theta) l m else 0) := by
  obtain ⟨h1, h2⟩ := abs_lt.1 hth
  rw [QlmACH.platehole, if_neg (by push Not; exact ⟨hr, ht, hth.le⟩),
    table_density _ _ rho _ (Ach.plate_cells rho t r theta ht hr (Real.cos_pos_of_mem_Ioo ⟨h1, h2⟩))
      (fun l m _ => Ach.plate_high rho t r theta l m)]

theorem C68_cylhole2 (L : ℕ) (rho r R : ℝ) (hr : 0 < r) (hR : r ≤ R) :
    QlmACH.cylhole2 L rho r R = .ok (Mom.ofFn L fun l m =>
      if l ≤ 5 then densityInner rho (drilledYCylinder r R) l m else 0) := by
  rw [QlmACH.cylhole2, if_neg (by push Not; exact ⟨hr, hR⟩),
    table_density _ _ rho _ (Ach.ell_cells rho r R hr hR) (fun l m _ => Ach.ell_high rho r R l m)]

example : ∃ q, QlmACH.platehole 4 3 1 2 (-1) = .ok q
    ∧ q.get 4 (-3) = densityInner 3 (drilledSlab 1 2 (-1)) 4 (-3) := by
  rw [C68_platehole 4 3 1 2 (-1) (by norm_num) (by norm_num)
    (by rw [abs_neg, abs_one]; linarith [Real.pi_gt_three])]
  exact ⟨_, rfl, by rw [Mom.get_ofFn _ (by norm_num) (by norm_num), if_pos (by norm_num)]⟩

example : ∃ q, QlmACH.cylhole2 5 3 2 2 = .ok q
    ∧ q.get 4 2 = densityInner 3 (drilledYCylinder 2 2) 4 2 := by
  rw [C68_cylhole2 5 3 2 2 (by norm_num) le_rfl]
  exact ⟨_, rfl, by rw [Mom.get_ofFn _ (by norm_num) (by norm_num), if_pos (by norm_num)]⟩

/-! ## C69: the tables with wrong cells -/

/-- A table that is right except for the real amount `e` in one cell with `m = 0`. -/
theorem table_but_zero (L : ℕ) (val : ℕ → ℕ → ℂ) (rho : ℝ) (S : Set V3) (l0 : ℕ) (h0 : l0 ≤ 5) (e : ℝ)
    (h : ∀ l m : ℕ, m ≤ l → l ≤ 5 → val l m = densityInner rho S l m - if l = l0 ∧ m = 0 then (e : ℂ) else 0)
    (h5 : ∀ l m : ℕ, m ≤ l → 5 < l → val l m = 0) :
    QlmACH.table L val = Mom.ofFn L fun l m =>
      (if l ≤ 5 then densityInner rho S l m else 0) - if l = l0 ∧ m = 0 then (e : ℂ) else 0 := by
  rw [table_eq L val (fun l m => densityInner rho S l m - if l = l0 ∧ m = 0 then (e : ℂ) else 0) ?_ ?_ ?_ h5]
  · congr 1
    funext l m
    split_ifs with h1 h2 h2
    · rfl
    · rfl
    · exact absurd (h2.1 ▸ h0) h1
    · simp
  · intro l m
    try simp only
    rw [densityInner_neg, map_sub, mul_sub]
    congr 1
    by_cases hm : m = 0
    · subst hm
      simp only [neg_zero, Int.natAbs_zero, pow_zero, one_mul]
      split_ifs <;> simp
    · rw [if_neg (by omega), if_neg (by omega), map_zero, mul_zero]
  · intro l m hm
    rw [densityInner_out rho S l m hm, if_neg (by omega), sub_zero]
  · intro l m hm hl
    rw [h l m hm hl]
    simp only [Int.natCast_eq_zero]

/-- A table that is right except for the real amount `e` in the cells `(4, 4)` and `(4, -4)`. -/
theorem table_but_four (L : ℕ) (val : ℕ → ℕ → ℂ) (rho : ℝ) (S : Set V3) (e : ℝ)
    (h : ∀ l m : ℕ, m ≤ l → l ≤ 5 → val l m = densityInner rho S l m - if l = 4 ∧ m = 4 then (e : ℂ) else 0)
    (h5 : ∀ l m : ℕ, m ≤ l → 5 < l → val l m = 0) :
    QlmACH.table L val = Mom.ofFn L fun l m =>
      (if l ≤ 5 then densityInner rho S l m else 0) - if l = 4 ∧ m.natAbs = 4 then (e : ℂ) else 0 := by
  rw [table_eq L val (fun l m => densityInner rho S l m - if l = 4 ∧ m.natAbs = 4 then (e : ℂ) else 0) ?_ ?_ ?_ h5]
  · congr 1
    funext l m
    split_ifs with h1 h2 h2
    · rfl
    · rfl
    · omega
    · simp
  · intro l m
    try simp only
    rw [densityInner_neg, map_sub, mul_sub]
    congr 1
    by_cases hm : l = 4 ∧ m.natAbs = 4
    · rw [if_pos (by rwa [Int.natAbs_neg]), if_pos hm, hm.2, Complex.conj_ofReal]; ring
    · rw [if_neg (by rwa [Int.natAbs_neg]), if_neg hm]; simp
  · intro l m hm
    rw [densityInner_out rho S l m hm, if_neg (by omega), sub_zero]
  · intro l m hm hl
    rw [h l m hm hl]
    simp only [Int.natAbs_natCast]

/-- C69: `cone` is right in every cell but `q_50`, which is off by a term containing `r1 - 1`
(a dimension error: the source writes `r2*r1**2` where `r2*r1**3` is meant). -/
theorem C69_cone (L : ℕ) (rho h r1 r2 : ℝ) (hh : 0 < h) (hr : ¬ (r1 = 0 ∧ r2 = 0)) :
    QlmACH.cone L rho h r1 r2 = .ok (Mom.ofFn L fun l m =>
      (if l ≤ 5 then densityInner rho (frustum (-(h / 2)) (h / 2) r2 r1) l m else 0)
      - if l = 5 ∧ m = 0 then
          ((rho * Real.sqrt Real.pi * h ^ 2 * (r1 ^ 2 - r2 ^ 2) * (5 * (2 * r1 ^ 2 * r2 * (r1 - 1))) * Real.sqrt 11 / 896 : ℝ) : ℂ)
        else 0) := by
  have e : h / 2 = -(h / 2) + h := by ring
  rw [QlmACH.cone, if_neg (by push Not; exact ⟨hh, fun h1 h2 => hr ⟨h1, h2⟩⟩), table_but_zero L _ rho
    (frustum (-(h / 2)) (h / 2) r2 r1) 5 le_rfl _ ?_ (fun l m _ => Ach.con_high rho h r1 r2 l m)]
  intro l m hm hl
  rw [show frustum (-(h / 2)) (h / 2) r2 r1 = frustum (-(h / 2)) (-(h / 2) + h) r2 r1 by rw [← e]]
  by_cases h0 : m = 0
  · subst h0
    have hl' : l = 0 ∨ l = 1 ∨ l = 2 ∨ l = 3 ∨ l = 4 ∨ l = 5 := by omega
    rcases hl' with rfl | rfl | rfl | rfl | rfl | rfl
    · rw [if_neg (by omega), sub_zero]; exact Ach.con_00 rho h r1 r2 hh
    · rw [if_neg (by omega), sub_zero]; exact Ach.con_10 rho h r1 r2 hh
    · rw [if_neg (by omega), sub_zero]; exact Ach.con_20 rho h r1 r2 hh
    · rw [if_neg (by omega), sub_zero]; exact Ach.con_30 rho h r1 r2 hh
    · rw [if_neg (by omega), sub_zero]; exact Ach.con_40 rho h r1 r2 hh
    · rw [if_pos ⟨rfl, rfl⟩]; exact Ach.con_50 rho h r1 r2 hh
  · rw [if_neg (by omega), sub_zero, Ach.con_pos rho h r1 r2 hh l m hm h0]

/-- C69: so `cone` gives the moments of the frustum exactly when the two radii agree up to sign, one of
them is zero, the upper radius is 1, or there is no matter. -/
theorem C69_cone_right_iff (L : ℕ) (hL : 5 ≤ L) (rho h r1 r2 : ℝ) (hh : 0 < h) (hr : ¬ (r1 = 0 ∧ r2 = 0)) :
    QlmACH.cone L rho h r1 r2 = .ok (Mom.ofFn L fun l m =>
      if l ≤ 5 then densityInner rho (frustum (-(h / 2)) (h / 2) r2 r1) l m else 0) ↔
    rho = 0 ∨ r1 ^ 2 = r2 ^ 2 ∨ r1 = 0 ∨ r2 = 0 ∨ r1 = 1 := by
  rw [C69_cone L rho h r1 r2 hh hr]
  have hpi := Real.sqrt_pos.2 Real.pi_pos
  have h11 : 0 < Real.sqrt 11 := Real.sqrt_pos.2 (by norm_num)
  constructor
  · intro H
    have H' := congrArg (fun q : Mom L => q.get 5 0) (BigQlm.Res.ok.inj H)
    try simp only at H'
    rw [Mom.get_ofFn _ hL (by simp), Mom.get_ofFn _ hL (by simp), if_pos le_rfl, if_pos ⟨rfl, rfl⟩,
      sub_eq_self, Complex.ofReal_eq_zero] at H'
    by_contra hc
    push Not at hc
    obtain ⟨a, b, c, d, e⟩ := hc
    have : r1 ^ 2 - r2 ^ 2 ≠ 0 := sub_ne_zero.2 b
    have : r1 - 1 ≠ 0 := sub_ne_zero.2 e
    revert H'
    positivity
  · intro H
    have hz : rho * Real.sqrt Real.pi * h ^ 2 * (r1 ^ 2 - r2 ^ 2) * (5 * (2 * r1 ^ 2 * r2 * (r1 - 1))) * Real.sqrt 11 / 896 = 0 := by
      rcases H with H | H | H | H | H <;> rw [H] <;> ring
    simp only [hz, Complex.ofReal_zero, ite_self, sub_zero]

/-- C69: `cone2` is right in every cell but `q_20`. -/
theorem C69_cone2 (L : ℕ) (rho h r1 r2 : ℝ) (hh : 0 < h) (hr : ¬ (r1 = 0 ∧ r2 = 0)) :
    QlmACH.cone2 L rho h r1 r2 = .ok (Mom.ofFn L fun l m =>
      (if l ≤ 5 then densityInner rho (frustum 0 h r1 r2) l m else 0)
      - if l = 2 ∧ m = 0 then
          ((rho * Real.sqrt Real.pi * h * (3 * (r1 ^ 3 * r2 + 2 * r1 ^ 2 * r2 ^ 2)) / (24 * Real.sqrt 5) : ℝ) : ℂ)
        else 0) := by
  rw [QlmACH.cone2, if_neg (by push Not; exact ⟨hh, fun h1 h2 => hr ⟨h1, h2⟩⟩), table_but_zero L _ rho
    (frustum 0 h r1 r2) 2 (by norm_num) _ ?_ (fun l m _ => Ach.conTwo_high rho h r1 r2 l m)]
  intro l m hm hl
  rw [show frustum 0 h r1 r2 = frustum 0 (0 + h) r1 r2 by rw [zero_add]]
  by_cases h0 : m = 0
  · subst h0
    have hl' : l = 0 ∨ l = 1 ∨ l = 2 ∨ l = 3 ∨ l = 4 ∨ l = 5 := by omega
    rcases hl' with rfl | rfl | rfl | rfl | rfl | rfl
    · rw [if_neg (by omega), sub_zero]; exact Ach.conTwo_00 rho h r1 r2 hh
    · rw [if_neg (by omega), sub_zero]; exact Ach.conTwo_10 rho h r1 r2 hh
    · rw [if_pos ⟨rfl, rfl⟩]; exact Ach.conTwo_20 rho h r1 r2 hh
    · rw [if_neg (by omega), sub_zero]; exact Ach.conTwo_30 rho h r1 r2 hh
    · rw [if_neg (by omega), sub_zero]; exact Ach.conTwo_40 rho h r1 r2 hh
    · rw [if_neg (by omega), sub_zero]; exact Ach.conTwo_50 rho h r1 r2 hh
  · rw [if_neg (by omega), sub_zero, Ach.conTwo_pos rho h r1 r2 hh l m hm h0]

/-- C69: with matter in it, `cone2` is right exactly for a complete cone, or when one (signed) radius is
minus twice the other; for two positive radii it is always wrong. -/
theorem C69_cone2_right_iff (L : ℕ) (hL : 2 ≤ L) (rho h r1 r2 : ℝ) (hh : 0 < h) (hr : ¬ (r1 = 0 ∧ r2 = 0)) :
    QlmACH.cone2 L rho h r1 r2 = .ok (Mom.ofFn L fun l m =>
      if l ≤ 5 then densityInner rho (frustum 0 h r1 r2) l m else 0) ↔
    rho = 0 ∨ r1 = 0 ∨ r2 = 0 ∨ r1 = -2 * r2 := by
  rw [C69_cone2 L rho h r1 r2 hh hr]
  have hpi := Real.sqrt_pos.2 Real.pi_pos
  have h11 : 0 < Real.sqrt 5 := Real.sqrt_pos.2 (by norm_num)
  have hf : r1 ^ 3 * r2 + 2 * r1 ^ 2 * r2 ^ 2 = r1 ^ 2 * r2 * (r1 + 2 * r2) := by ring
  rw [hf]
  constructor
  · intro H
    have H' := congrArg (fun q : Mom L => q.get 2 0) (BigQlm.Res.ok.inj H)
    try simp only at H'
    rw [Mom.get_ofFn _ hL (by simp), Mom.get_ofFn _ hL (by simp), if_pos (by norm_num), if_pos ⟨rfl, rfl⟩,
      sub_eq_self, Complex.ofReal_eq_zero] at H'
    by_contra hc
    push Not at hc
    obtain ⟨a, b, c, d⟩ := hc
    have : r1 + 2 * r2 ≠ 0 := fun h => d (by linarith)
    revert H'
    positivity
  · intro H
    have hz : rho * Real.sqrt Real.pi * h * (3 * (r1 ^ 2 * r2 * (r1 + 2 * r2))) / (24 * Real.sqrt 5) = 0 := by
      rcases H with H | H | H | H <;> rw [H] <;> ring
    simp only [hz, Complex.ofReal_zero, ite_self, sub_zero]

/-- C69: `trapezoid` is right in every cell but `q_44` and `q_4-4`. -/
theorem C69_trapezoid (L : ℕ) (rho t w1 w2 h : ℝ) (ht : 0 < t) (h1 : 0 ≤ w1) (h2 : 0 ≤ w2) (hw : w1 + w2 ≠ 0)
    (hh : 0 < h) :
    QlmACH.trapezoid L rho t w1 w2 h = .ok (Mom.ofFn L fun l m =>
      (if l ≤ 5 then densityInner rho (prism t (trapezoid w1 w2 h)) l m else 0)
      - if l = 4 ∧ m.natAbs = 4 then
          ((rho * h * t * ((w1 + w2) / 2) / Real.sqrt (4 * Real.pi) * Real.sqrt (7 / 10) / 64
            * (48 * h ^ 4 - 40 * h ^ 2 * ((w1 + w2) / 2) ^ 2 + 3 * ((w1 + w2) / 2) ^ 4) : ℝ) : ℂ)
        else 0) := by
  have hw2 : (w1 + w2) / 2 ≠ 0 := by simpa using hw
  rw [QlmACH.trapezoid, if_neg (by push Not; exact ⟨hh, ht, h1, h2⟩), if_neg hw2,
    table_but_four L _ rho (prism t (trapezoid w1 w2 h)) _ ?_ (fun l m _ => Ach.trap_high rho t w1 w2 h l m)]
  intro l m hm hl
  by_cases h44 : l = 4 ∧ m = 4
  · obtain ⟨rfl, rfl⟩ := h44
    rw [if_pos ⟨rfl, rfl⟩]
    exact Ach.trap_cell44 rho t w1 w2 h ht h1 h2 hw hh
  · rw [if_neg h44, sub_zero]
    exact Ach.trap_cells rho t w1 w2 h ht h1 h2 hw hh l m hm hl h44

/-- C69: `trapezoid` is right only when the mean width is one of two special multiples of the height,
`w^2 = (20 -+ 16) h^2 / 3`. -/
theorem C69_trapezoid_right_iff (L : ℕ) (hL : 4 ≤ L) (rho t w1 w2 h : ℝ) (ht : 0 < t) (h1 : 0 ≤ w1) (h2 : 0 ≤ w2)
    (hw : w1 + w2 ≠ 0) (hh : 0 < h) :
    QlmACH.trapezoid L rho t w1 w2 h = .ok (Mom.ofFn L fun l m =>
      if l ≤ 5 then densityInner rho (prism t (trapezoid w1 w2 h)) l m else 0) ↔
    rho = 0 ∨ 3 * ((w1 + w2) / 2) ^ 2 = 4 * h ^ 2 ∨ ((w1 + w2) / 2) ^ 2 = 12 * h ^ 2 := by
  rw [C69_trapezoid L rho t w1 w2 h ht h1 h2 hw hh]
  have hpi : 0 < Real.sqrt (4 * Real.pi) := Real.sqrt_pos.2 (by have := Real.pi_pos; positivity)
  have h7 : 0 < Real.sqrt (7 / 10) := Real.sqrt_pos.2 (by norm_num)
  have hw2 : (w1 + w2) / 2 ≠ 0 := by simpa using hw
  have hf : 48 * h ^ 4 - 40 * h ^ 2 * ((w1 + w2) / 2) ^ 2 + 3 * ((w1 + w2) / 2) ^ 4
      = (3 * ((w1 + w2) / 2) ^ 2 - 4 * h ^ 2) * (((w1 + w2) / 2) ^ 2 - 12 * h ^ 2) := by ring
  rw [hf]
  generalize (w1 + w2) / 2 = w at *
  constructor
  · intro H
    have H' := congrArg (fun q : Mom L => q.get 4 4) (BigQlm.Res.ok.inj H)
    try simp only at H'
    rw [Mom.get_ofFn _ hL (by simpa using hL), Mom.get_ofFn _ hL (by simpa using hL), if_pos (by norm_num),
      if_pos ⟨rfl, rfl⟩, sub_eq_self, Complex.ofReal_eq_zero] at H'
    by_contra hc
    push Not at hc
    obtain ⟨a, b, c⟩ := hc
    have : 3 * w ^ 2 - 4 * h ^ 2 ≠ 0 := sub_ne_zero.2 b
    have : w ^ 2 - 12 * h ^ 2 ≠ 0 := sub_ne_zero.2 c
    revert H'
    positivity
  · intro H
    have hz : rho * h * t * w / Real.sqrt (4 * Real.pi) * Real.sqrt (7 / 10) / 64
        * ((3 * w ^ 2 - 4 * h ^ 2) * (w ^ 2 - 12 * h ^ 2)) = 0 := by
      rcases H with H | H | H <;> rw [H] <;> ring
    simp only [hz, Complex.ofReal_zero, ite_self, sub_zero]

/-- C69: every cell of `cylhole` is right but `q_2+-2` and `q_4+-4`: the moments of the drilled-out
matter are `rho c2`, `rho c4` with `c2, c4 <= 0`, the code returns `rho d2`, `rho d4` with `d2, d4 > 0`. -/
theorem C69_cylhole (L : ℕ) (r R : ℝ) (hr : 0 < r) (hR : r ≤ R) :
    ∃ c2 d2 c4 d4 : ℝ, c2 ≤ 0 ∧ 0 < d2 ∧ c4 ≤ 0 ∧ 0 < d4 ∧ ∀ rho : ℝ,
      densityInner rho (drilledYCylinder r R) 2 2 = ((rho * c2 : ℝ) : ℂ) ∧
      densityInner rho (drilledYCylinder r R) 4 4 = ((rho * c4 : ℝ) : ℂ) ∧
      QlmACH.cylhole L rho r R = .ok (Mom.ofFn L fun l m =>
        if l = 2 ∧ m.natAbs = 2 then ((rho * d2 : ℝ) : ℂ)
        else if l = 4 ∧ m.natAbs = 4 then ((rho * d4 : ℝ) : ℂ)
        else if l ≤ 5 then densityInner rho (drilledYCylinder r R) l m else 0) := by
  obtain ⟨c2, d2, hc2, hd2, f2⟩ := Ach.hyp_22 r R hr hR
  obtain ⟨c4, d4, hc4, hd4, f4⟩ := Ach.hyp_44 r R hr hR
  refine ⟨c2, d2, c4, d4, hc2, hd2, hc4, hd4, fun rho => ⟨(f2 rho).1, (f4 rho).1, ?_⟩⟩
  rw [QlmACH.cylhole, if_neg (by push Not; exact ⟨hr, hR⟩),
    table_eq L _ (fun l m => if l = 2 ∧ m.natAbs = 2 then ((rho * d2 : ℝ) : ℂ)
      else if l = 4 ∧ m.natAbs = 4 then ((rho * d4 : ℝ) : ℂ)
      else densityInner rho (drilledYCylinder r R) l m) ?_ ?_ ?_ (fun l m _ => Ach.hyp_high rho r R l m)]
  · congr 2
    funext l m
    split_ifs with h1 h2 h3 h4 h5 <;> first | rfl | omega
  · intro l m
    simp only [Int.natAbs_neg]
    split_ifs with ha hb
    · rw [ha.2, Complex.conj_ofReal]; ring
    · rw [hb.2, Complex.conj_ofReal]; ring
    · exact densityInner_neg _ _ _ _
  · intro l m h
    rw [if_neg (by omega), if_neg (by omega)]
    exact densityInner_out _ _ _ _ h
  · intro l m h h5
    simp only [Int.natAbs_natCast]
    split_ifs with ha hb
    · rw [ha.1, ha.2]; exact (f2 rho).2
    · rw [hb.1, hb.2]; exact (f4 rho).2
    · exact Ach.hyp_cells rho r R hr hR l m h h5 ⟨ha, hb⟩

/-- C69: so `cylhole` is never right when there is matter and the quadrupole is asked for, and never
agrees with `cylhole2`, which describes the same body. -/
theorem C69_cylhole_wrong (L : ℕ) (hL : 2 ≤ L) (rho r R : ℝ) (hr : 0 < r) (hR : r ≤ R) (hrho : rho ≠ 0) :
    QlmACH.cylhole L rho r R ≠ .ok (Mom.ofFn L fun l m =>
      if l ≤ 5 then densityInner rho (drilledYCylinder r R) l m else 0) ∧
    QlmACH.cylhole L rho r R ≠ QlmACH.cylhole2 L rho r R := by
  rw [C68_cylhole2 L rho r R hr hR, and_self]
  obtain ⟨c2, d2, c4, d4, hc2, hd2, -, -, h⟩ := C69_cylhole L r R hr hR
  obtain ⟨e2, -, e⟩ := h rho
  rw [e]
  intro H
  have H' := congrArg (fun q : Mom L => q.get 2 2) (BigQlm.Res.ok.inj H)
  try simp only at H'
  rw [Mom.get_ofFn _ hL (by simpa using hL), Mom.get_ofFn _ hL (by simpa using hL), if_pos ⟨rfl, rfl⟩,
    if_pos (by norm_num), e2, Complex.ofReal_inj] at H'
  have := mul_left_cancel₀ hrho H'
  linarith

/-- A concrete frustum for which `cone` is wrong, and one for which it is right. -/
example : QlmACH.cone 5 1 1 2 1 ≠ .ok (Mom.ofFn 5 fun l m =>
      if l ≤ 5 then densityInner 1 (frustum (-(1 / 2)) (1 / 2) 1 2) l m else 0) := by
  rw [Ne, C69_cone_right_iff 5 le_rfl 1 1 2 1 one_pos (by norm_num)]
  norm_num

example : QlmACH.cone 5 1 1 0 3 = .ok (Mom.ofFn 5 fun l m =>
      if l ≤ 5 then densityInner 1 (frustum (-(1 / 2)) (1 / 2) 3 0) l m else 0) :=
  (C69_cone_right_iff 5 le_rfl 1 1 0 3 one_pos (by norm_num)).2 (by norm_num)

example : QlmACH.cone2 5 1 1 1 1 ≠ .ok (Mom.ofFn 5 fun l m =>
      if l ≤ 5 then densityInner 1 (frustum 0 1 1 1) l m else 0) := by
  rw [Ne, C69_cone2_right_iff 5 (by norm_num) 1 1 1 1 one_pos (by norm_num)]
  norm_num

example : QlmACH.trapezoid 5 1 1 1 1 1 ≠ .ok (Mom.ofFn 5 fun l m =>
      if l ≤ 5 then densityInner 1 (prism 1 (trapezoid 1 1 1)) l m else 0) := by
  rw [Ne, C69_trapezoid_right_iff 5 (by norm_num) 1 1 1 1 1 one_pos zero_le_one zero_le_one (by norm_num) one_pos]
  norm_num

example : QlmACH.cylhole 2 1 1 2 ≠ QlmACH.cylhole2 2 1 1 2 :=
  (C69_cylhole_wrong 2 le_rfl 1 1 2 one_pos (by norm_num) one_ne_zero).2

/-! ## C70: which parameters are refused -/

theorem C70_refused (L : ℕ) (rho : ℝ) :
    (∀ x y z, QlmACH.rectPrism L rho x y z = .valueError ↔ ¬ (0 < x ∧ 0 < y ∧ 0 < z)) ∧
    (∀ H Ri Ro phic phih, QlmACH.annulus L rho H Ri Ro phic phih = .valueError ↔
      ¬ (Ri < Ro ∧ 0 < Ro ∧ 0 < H ∧ 0 < phih ∧ phih ≤ Real.pi)) ∧
    (∀ h r1 r2, QlmACH.cone L rho h r1 r2 = .valueError ↔ ¬ (0 < h ∧ (r1 ≠ 0 ∨ r2 ≠ 0))) ∧
    (∀ h r1 r2, QlmACH.cone2 L rho h r1 r2 = .valueError ↔ ¬ (0 < h ∧ (r1 ≠ 0 ∨ r2 ≠ 0))) ∧
    (∀ h d y1 y2, QlmACH.triPrism L rho h d y1 y2 = .valueError ↔ ¬ (0 < h ∧ d ≠ 0 ∧ y1 ≠ y2)) ∧
    (∀ t w1 w2 h, QlmACH.trapezoid L rho t w1 w2 h = .valueError ↔ ¬ (0 < h ∧ 0 < t ∧ 0 ≤ w1 ∧ 0 ≤ w2)) ∧
    (∀ t r d, QlmACH.cylindricalSection L rho t r d = .valueError ↔ ¬ (0 < t ∧ 0 < d ∧ d < r)) ∧
    (∀ x y z, QlmACH.tetrahedron L rho x y z = .valueError ↔ ¬ (0 < x ∧ 0 < y ∧ 0 < z)) ∧
    (∀ t r theta, QlmACH.platehole L rho t r theta = .valueError ↔ ¬ (0 < t ∧ 0 < r ∧ |theta| ≤ Real.pi / 2)) ∧
    (∀ h x y, QlmACH.pyramid L rho h x y = .valueError ↔ ¬ (0 < h ∧ 0 < x ∧ 0 < y)) ∧
    (∀ r R, QlmACH.cylhole L rho r R = .valueError ↔ ¬ (0 < r ∧ r ≤ R)) ∧
    (∀ r R, QlmACH.cylhole2 L rho r R = .valueError ↔ ¬ (0 < r ∧ r ≤ R)) := by
  refine ⟨?_, ?_, ?_, ?_, ?_, ?_, ?_, ?_, ?_, ?_, ?_, ?_⟩
  · intro x y z
    unfold QlmACH.rectPrism
    split_ifs with h <;> simp only [true_iff, reduceCtorEq, false_iff, ← not_le, not_and_or, not_not] <;> tauto
  · intro H Ri Ro phic phih
    unfold QlmACH.annulus
    split_ifs with h <;> simp only [true_iff, reduceCtorEq, false_iff, ← not_le, gt_iff_lt] at h ⊢ <;> tauto
  · intro h r1 r2
    unfold QlmACH.cone
    split_ifs with h <;> simp only [true_iff, reduceCtorEq, false_iff, ← not_le] <;> tauto
  · intro h r1 r2
    unfold QlmACH.cone2
    split_ifs with h <;> simp only [true_iff, reduceCtorEq, false_iff, ← not_le] <;> tauto
  · intro h d y1 y2
    unfold QlmACH.triPrism
    split_ifs with h <;> simp only [true_iff, reduceCtorEq, false_iff, ← not_le] <;> tauto
  · intro t w1 w2 h
    unfold QlmACH.trapezoid
    split_ifs with h h'
    · simp only [true_iff]
      rintro ⟨a, b, c, d⟩
      rcases h with h | h | h | h <;> linarith
    · push Not at h
      simp only [reduceCtorEq, false_iff, not_not]
      exact h
    · push Not at h
      simp only [reduceCtorEq, false_iff, not_not]
      exact h
  · intro t r d
    unfold QlmACH.cylindricalSection
    split_ifs with h <;> simp only [true_iff, reduceCtorEq, false_iff, ← not_le] <;> tauto
  · intro x y z
    unfold QlmACH.tetrahedron
    split_ifs with h <;> simp only [true_iff, reduceCtorEq, false_iff, ← not_le] <;> tauto
  · intro t r theta
    unfold QlmACH.platehole
    split_ifs with h <;> simp only [true_iff, reduceCtorEq, false_iff, ← not_le, gt_iff_lt] at h ⊢ <;> tauto
  · intro h x y
    unfold QlmACH.pyramid
    split_ifs with h <;> simp only [true_iff, reduceCtorEq, false_iff, ← not_le] <;> tauto
  · intro r R
    unfold QlmACH.cylhole
    split_ifs with h <;> simp only [true_iff, reduceCtorEq, false_iff, ← not_le] at h ⊢ <;> tauto
  · intro r R
    unfold QlmACH.cylhole2
    split_ifs with h <;> simp only [true_iff, reduceCtorEq, false_iff, ← not_le] at h ⊢ <;> tauto

/-- C70: the only division by zero: the trapezoid whose two parallel sides are both points. -/
theorem C70_trapezoid_zero (L : ℕ) (rho t w1 w2 h : ℝ) :
    QlmACH.trapezoid L rho t w1 w2 h = .zeroDivision ↔ 0 < h ∧ 0 < t ∧ w1 = 0 ∧ w2 = 0 := by
  unfold QlmACH.trapezoid
  split_ifs with h1 h2
  · simp only [reduceCtorEq, false_iff]
    rintro ⟨a, b, rfl, rfl⟩
    rcases h1 with h1 | h1 | h1 | h1 <;> linarith
  · push Not at h1
    simp only [true_iff]
    exact ⟨h1.1, h1.2.1, by linarith [h1.2.2.1, h1.2.2.2], by linarith [h1.2.2.1, h1.2.2.2]⟩
  · simp only [reduceCtorEq, false_iff]
    rintro ⟨a, b, rfl, rfl⟩
    norm_num at h2

/-- C70: unlike `qlm.annulus`, this `annulus` accepts a negative inner radius; what comes out carries the
mass of the body `Ri^2 <= r^2 <= Ro^2`, which is less than that of the sector it contains (and negative
as soon as `Ri < -Ro`). -/
theorem C70_annulus_negative_radius (L : ℕ) (rho H Ri Ro phic phih : ℝ) (hH : 0 < H) (hR : Ri < Ro) (hRo : 0 < Ro)
    (h0 : 0 < phih) (hpi : phih ≤ Real.pi) :
    ∃ q, QlmACH.annulus L rho H Ri Ro phic phih = .ok q ∧
      q.get 0 0 = ((rho * (H * phih * (Ro ^ 2 - Ri ^ 2)) / Real.sqrt (4 * Real.pi) : ℝ) : ℂ) := by
  rw [QlmACH.annulus, if_neg (by push Not; exact ⟨hR, hRo, hH, hpi, h0⟩)]
  refine ⟨_, rfl, ?_⟩
  have e : QlmACH.annCell rho H Ri Ro phic phih 0 0
      = ((rho * (H * phih * (Ro ^ 2 - Ri ^ 2)) / Real.sqrt (4 * Real.pi) : ℝ) : ℂ) := by
    change ((QlmACH.ann00 rho H (phih * 2) (Ro - Ri) ((Ro + Ri) / 2) : ℝ) : ℂ) = _
    rw [QlmACH.ann00]
    congr 1
    ring
  rw [QlmACH.table, Mom.get_ofFn _ (by omega) (by simp), Qlm.fill, Mom.get_fillNeg _ (by omega) (by simp)]
  simp only [neg_zero, Int.natAbs_zero, pow_zero, mul_one, if_true]
  rw [Mom.get_ofFn _ (by omega) (by simp), if_pos ⟨le_rfl, by simp⟩, Int.toNat_zero, e, Complex.conj_ofReal]
  ring

example : ∃ q, QlmACH.annulus 5 1 1 (-3) 2 0 1 = .ok q ∧ (q.get 0 0).re < 0 := by
  obtain ⟨q, h1, h2⟩ := C70_annulus_negative_radius 5 1 1 (-3) 2 0 1 one_pos (by norm_num) (by norm_num) one_pos
    (by linarith [Real.pi_gt_three])
  refine ⟨q, h1, ?_⟩
  rw [h2, Complex.ofReal_re]
  apply div_neg_of_neg_of_pos (by norm_num)
  exact Real.sqrt_pos.2 (by have := Real.pi_pos; positivity)

/-! ## C71: the same solids in `newt/qlm.py`

The constructors of `newt/qlm.py` take the mass, these take the density. -/

theorem volume_of_density (S : Set V3) (V : ℝ) (h : densityInner 1 S 0 0 = ((V / Real.sqrt (4 * Real.pi) : ℝ) : ℂ)) :
    (volume S).toReal = V := by
  rw [densityInner] at h
  simp_rw [solidS_zero_zero] at h
  have hs : 0 < Real.sqrt (4 * Real.pi) := Real.sqrt_pos.2 (by have := Real.pi_pos; positivity)
  have e : (∫ _ in S, ((Nlm 0 0 : ℝ) : ℂ)) = (((volume S).toReal * Nlm 0 0 : ℝ) : ℂ) := by
    rw [setIntegral_const, Measure.real]
    simp
  rw [e, Nlm_zero, Complex.ofReal_one, one_mul, Complex.ofReal_inj] at h
  field_simp at h
  exact h

theorem uniform_density (rho V : ℝ) (S : Set V3) (hV : (volume S).toReal = V) (h0 : V ≠ 0) (l : ℕ) (m : ℤ) :
    uniformMoment (rho * V) S l m = densityInner rho S l m := by
  rw [uniformMoment, densityInner, hV, mul_div_assoc, div_self h0, mul_one]

theorem cut_five (L : ℕ) (hL : L ≤ 5) (F : ℕ → ℤ → ℂ) :
    (Mom.ofFn L fun l m => if l ≤ 5 then F l m else 0) = Mom.ofFn L F := by
  apply Mom.ext_get
  intro l m hl hm
  rw [Mom.get_ofFn _ hl hm, Mom.get_ofFn _ hl hm, if_pos (by omega)]

theorem uniform_cut (L : ℕ) (hL : L ≤ 5) (rho V : ℝ) (S : Set V3) (hV : (volume S).toReal = V) (h0 : V ≠ 0) :
    Mom.ofFn L (uniformMoment (rho * V) S) = Mom.ofFn L fun l m => if l ≤ 5 then densityInner rho S l m else 0 := by
  rw [cut_five L hL]
  congr 1
  funext l m
  exact uniform_density rho V S hV h0 l m

theorem C71_rect_prism (L : ℕ) (hL : L ≤ 5) (rho x y z : ℝ) (hx : 0 < x) (hy : 0 < y) (hz : 0 < z) :
    ∃ q, QlmACH.rectPrism L rho x y z = .ok q ∧ Qlm.rectPrism L (rho * (x * y * z)) z x y 0 = .ok q := by
  refine ⟨_, C67_rect_prism L rho x y z hx hy hz, ?_⟩
  rw [C36_rect_prism L _ z x y 0 hz hx hy, Multi.rotated_zero, uniform_cut L hL rho _ _ ?_ (by positivity)]
  rw [prism_vol z hz, area_rect x y hx hy]; ring

theorem C71_annulus (L : ℕ) (hL : L ≤ 5) (rho H Ri Ro phic phih : ℝ) (hH : 0 < H) (hRi : 0 ≤ Ri) (hR : Ri < Ro)
    (h0 : 0 < phih) (hpi : phih ≤ Real.pi) :
    ∃ q, QlmACH.annulus L rho H Ri Ro phic phih = .ok q ∧
      Qlm.annulus L (rho * (H * phih * (Ro ^ 2 - Ri ^ 2))) H Ri Ro phic phih = .ok q := by
  refine ⟨_, C67_annulus L rho H Ri Ro phic phih hH hRi hR h0 hpi, ?_⟩
  have : 0 < Ro ^ 2 - Ri ^ 2 := by nlinarith
  rw [C36_annulus L _ H Ri Ro phic phih hH hRi hR h0 hpi, uniform_cut L hL rho _ _ ?_ (by positivity)]
  rw [prism_vol H hH, area_sector _ _ _ _ hRi hR.le h0.le hpi]; ring

theorem C71_tri_prism (L : ℕ) (hL : L ≤ 5) (rho h d y1 y2 : ℝ) (hh : 0 < h) (hd : d ≠ 0) (hy : y1 ≠ y2) :
    ∃ q, QlmACH.triPrism L rho h d y1 y2 = .ok q ∧ Qlm.triPrism L (rho * (h * |d * (y1 - y2)| / 2)) h d y1 y2 = .ok q := by
  refine ⟨_, C67_tri_prism L rho h d y1 y2 hh hd hy, ?_⟩
  have hne : d * (y1 - y2) ≠ 0 := mul_ne_zero hd (sub_ne_zero.2 hy)
  rw [C36_tri_prism L _ h d y1 y2 hh hd hy, uniform_cut L hL rho _ _ ?_ (by positivity)]
  apply volume_of_density
  have h00 := Ach.tri_cells 1 h d y1 y2 hh hd 0 0 le_rfl (by norm_num)
  rw [Nat.cast_zero] at h00
  rw [← h00]
  change ((1 * h * |d * (y1 - y2)| / (4 * Real.sqrt Real.pi) : ℝ) : ℂ) = _
  rw [Real.sqrt_mul (by norm_num), show (4 : ℝ) = 2 ^ 2 by norm_num, Real.sqrt_sq (by norm_num)]
  congr 1
  have := (Real.sqrt_pos.2 Real.pi_pos).ne'
  field_simp

theorem C71_tetrahedron (L : ℕ) (hL : L ≤ 5) (rho x y z : ℝ) (hx : 0 < x) (hy : 0 < y) (hz : 0 < z) :
    ∃ q, QlmACH.tetrahedron L rho x y z = .ok q ∧ Qlm.tetrahedron L (rho * (x * y * z / 6)) x y z = .ok q := by
  refine ⟨_, C68_tetrahedron L rho x y z hx hy hz, ?_⟩
  rw [C36_tetrahedron L _ x y z hx hy hz, uniform_cut L hL rho _ _ ?_ (by positivity)]
  rw [cone_vol z hz _ (triangle_compact _ _), area_right x y hx hy]; ring

/-- The pyramid of `qlm.py` is given by half its sides. -/
theorem C71_pyramid (L : ℕ) (hL : L ≤ 5) (rho x y z : ℝ) (hx : 0 < x) (hy : 0 < y) (hz : 0 < z) :
    ∃ q, QlmACH.pyramid L rho z x y = .ok q ∧ Qlm.pyramid L (rho * (x * y * z / 3)) (x / 2) (y / 2) z = .ok q := by
  refine ⟨_, C68_pyramid L rho z x y hz hx hy, ?_⟩
  rw [C36_pyramid L _ (x / 2) (y / 2) z (by positivity) (by positivity) hz, mul_div_cancel₀ x two_ne_zero,
    mul_div_cancel₀ y two_ne_zero, uniform_cut L hL rho _ _ ?_ (by positivity)]
  rw [cone_vol z hz _ (rectangle_compact _ _), area_rect x y hx hy]; ring

/-- A frustum with equal radii is a cylinder; `cone` is right there. -/
theorem C71_cylinder (L : ℕ) (hL : L ≤ 5) (rho h R : ℝ) (hh : 0 < h) (hR : 0 < R) :
    ∃ q, QlmACH.cone L rho h R R = .ok q ∧ Qlm.cylinder L (rho * (Real.pi * R ^ 2 * h)) h R = .ok q := by
  have hpi := Real.pi_pos
  have hS : frustum (-(h / 2)) (h / 2) R R = prism h (disc R) := by
    ext v; simp only [frustum, prism, disc, Set.mem_setOf_eq, sub_self, zero_mul, add_zero]
  refine ⟨_, C69_cone L rho h R R hh (by simp [hR.ne']), ?_⟩
  rw [C36_cylinder L _ h R hh hR, uniform_cut L hL rho _ _ ?_ (by positivity)]
  · simp only [sub_self, mul_zero, zero_mul, zero_div, Complex.ofReal_zero, ite_self, sub_zero, hS]
  · rw [prism_vol h hh, area_disc R hR.le]; ring

theorem frustum_cone (h R : ℝ) (hh : 0 < h) (hR : 0 < R) : frustum 0 h R 0 = coneOver h (sector 0 R 0 Real.pi) := by
  rw [← disc_sector R hR.le]
  ext v
  simp only [frustum, coneOver, disc, Set.mem_setOf_eq, sub_zero, zero_sub]
  constructor
  · rintro ⟨h0, h1, h2⟩
    have hs0 : 0 ≤ 1 - v 2 / h := by rw [sub_nonneg, div_le_one hh]; exact h1
    have hs1 : 1 - v 2 / h ≤ 1 := by have := div_nonneg h0 hh.le; linarith
    have e : R + -R * (v 2 / h) = R * (1 - v 2 / h) := by ring
    rw [e] at h2
    rcases hs0.eq_or_lt with hs | hs
    · rw [← hs, mul_zero] at h2
      have a0 : v 0 = 0 := by nlinarith [sq_nonneg (v 0), sq_nonneg (v 1)]
      have a1 : v 1 = 0 := by nlinarith [sq_nonneg (v 0), sq_nonneg (v 1)]
      have a2 : v 2 / h = 1 := by linarith
      refine ⟨0, le_rfl, zero_le_one, (0, 0), by simp; positivity, by simp [a0], by simp [a1], ?_⟩
      rw [div_eq_one_iff_eq hh.ne'] at a2
      linarith
    · refine ⟨1 - v 2 / h, hs0, hs1, (v 0 / (1 - v 2 / h), v 1 / (1 - v 2 / h)), ?_, ?_, ?_, ?_⟩
      · simp only
        rw [div_pow, div_pow, ← add_div, div_le_iff₀ (by positivity), ← mul_pow]
        exact h2
      · simp only; rw [mul_div_cancel₀ _ hs.ne']
      · simp only; rw [mul_div_cancel₀ _ hs.ne']
      · rw [sub_sub_cancel, div_mul_cancel₀ _ hh.ne']
  · rintro ⟨s, hs0, hs1, b, hb, e0, e1, e2⟩
    have e : v 2 / h = 1 - s := by rw [e2, mul_div_assoc, div_self hh.ne', mul_one]
    refine ⟨by rw [e2]; exact mul_nonneg (by linarith) hh.le, by rw [e2]; nlinarith, ?_⟩
    rw [e, e0, e1]
    nlinarith [mul_le_mul_of_nonneg_left hb (sq_nonneg s)]

/-- `cone2` with a vanishing upper radius is the complete cone of `qlm.py`; it is right there. -/
theorem C71_cone (L : ℕ) (hL : L ≤ 5) (rho h R : ℝ) (hh : 0 < h) (hR : 0 < R) :
    ∃ q, QlmACH.cone2 L rho h R 0 = .ok q ∧ Qlm.cone L (rho * (Real.pi * R ^ 2 * h / 3)) h R 0 Real.pi = .ok q := by
  have hpi := Real.pi_pos
  refine ⟨_, C69_cone2 L rho h R 0 hh (by simp [hR.ne']), ?_⟩
  rw [C36_cone L _ h R 0 Real.pi hh hR hpi le_rfl, uniform_cut L hL rho _ _ ?_ (by positivity)]
  · simp only [mul_zero, ne_eq, OfNat.ofNat_ne_zero, not_false_eq_true, zero_pow, add_zero, zero_div,
      Complex.ofReal_zero, ite_self, sub_zero, frustum_cone h R hh hR]
  · rw [cone_vol h hh _ (sector_compact _ _ _ _), ← disc_sector R hR.le, area_disc R hR.le]; ring

/-- Above degree 5 the two libraries part: these tables have zeros, whatever the body. -/
theorem C71_high (L : ℕ) (rho x y z : ℝ) (hx : 0 < x) (hy : 0 < y) (hz : 0 < z) :
    ∃ q, QlmACH.rectPrism L rho x y z = .ok q ∧ ∀ l m, 5 < l → q.get l m = 0 := by
  refine ⟨_, C67_rect_prism L rho x y z hx hy hz, ?_⟩
  intro l m hl
  by_cases h : l ≤ L ∧ m.natAbs ≤ L
  · rw [Mom.get_ofFn _ h.1 h.2, if_neg (by omega)]
  · exact Mom.get_out _ h

example : ∃ q, QlmACH.triPrism 5 3 1 (-2) 4 1 = .ok q ∧ Qlm.triPrism 5 9 1 (-2) 4 1 = .ok q := by
  obtain ⟨q, h1, h2⟩ := C71_tri_prism 5 le_rfl 3 1 (-2) 4 1 one_pos (by norm_num) (by norm_num)
  refine ⟨q, h1, ?_⟩
  rw [show (3 : ℝ) * (1 * |(-2) * (4 - 1)| / 2) = 9 by norm_num [abs_of_neg]] at h2
  exact h2

end Newt
