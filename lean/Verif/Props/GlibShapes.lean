import Verif.Proofs.GlibShapes
import Verif.Proofs.PlanarNgon
import Verif.Proofs.Planar

/-!
# C42, C43, C44: the point-mass generators of `newt/glibShapes.py`

The regions are the same sets (Spec/Solids.lean) whose volume integrals `newt/qlm.py` returns
(C36), so a point array and a moment array made with the same parameters describe one solid.
-/

namespace Newt

open Spec Shp Finset

/-! ## C42: the masses add up to the requested mass -/

theorem C42_sphere (mass R : ℝ) (N : ℕ) (A : PtArray) (h : Shp.sphere mass R N = .ok A) (hA : A ≠ []) :
    totalMass A = mass := by
  rw [Shp.sphere] at h; split_ifs at h; exact rescale_total h hA

theorem length_grid (nx ny nz : ℕ) (f : ℕ → ℕ → ℕ → V3) : (grid nx ny nz f).length = nx * ny * nz := by
  simp [grid, List.length_flatMap]; ring

theorem C42_rectangle (mass x y z : ℝ) (nx ny nz : ℕ) (A : PtArray)
    (h : Shp.rectangle mass x y z nx ny nz = .ok A) : A.length = nx * ny * nz ∧ totalMass A = mass := by
  rw [Shp.rectangle] at h
  split_ifs at h with h1
  injection h with h
  subst h
  refine ⟨by rw [List.length_map, length_grid], ?_⟩
  simp only [totalMass, List.map_map, Function.comp_def, List.map_const', List.sum_replicate, length_grid,
    nsmul_eq_mul]
  have : ((nx * ny * nz : ℕ) : ℝ) ≠ 0 := by exact_mod_cast h1
  field_simp

theorem C42_annulus (mass r1 r2 t : ℝ) (nx nz : ℕ) (A : PtArray) (h : Shp.annulus mass r1 r2 t nx nz = .ok A) :
    A ≠ [] ∧ totalMass A = mass := by
  rw [Shp.annulus] at h; split_ifs at h
  obtain ⟨h1, h2⟩ := rescale1_ok h
  rw [h2]
  exact ⟨by simpa using h1, totalMass_map h1⟩

theorem C42_cone (mass R H beta : ℝ) (nx nz : ℕ) (A : PtArray) (h : Shp.cone mass R H beta nx nz = .ok A)
    (hA : A ≠ []) : totalMass A = mass := by
  rw [Shp.cone] at h; extract_lets at h; split_ifs at h <;> exact rescale_total h hA

theorem C42_spherical_random_shell (mass r : ℝ) (draws : List (ℝ × ℝ)) (A : PtArray)
    (h : sphericalRandomShell mass r draws = .ok A) : A ≠ [] ∧ totalMass A = mass := by
  rw [sphericalRandomShell] at h
  set x := draws.filter fun p => p.1 ^ 2 + p.2 ^ 2 < 1 with hx
  simp only at h
  split_ifs at h with h1
  injection h with h
  subst h
  have h4 : (x.length : ℝ) ≠ 0 := by exact_mod_cast h1
  refine ⟨fun h => h1 (by rw [List.map_eq_nil_iff.1 h]; rfl), ?_⟩
  simp only [totalMass, List.map_map, Function.comp_def, List.map_const', List.sum_replicate, nsmul_eq_mul]
  field_simp

theorem C42_wedge (mass r1 r2 t beta : ℝ) (nx nz : ℕ) (A : PtArray)
    (h : Shp.wedge mass r1 r2 t beta nx nz = .ok A) (hA : A ≠ []) : totalMass A = mass := by
  rw [Shp.wedge] at h; extract_lets at h; split_ifs at h <;> exact rescale_total h hA

theorem C42_trapezoid (mass r1 r2 t beta : ℝ) (nx nz : ℕ) (A : PtArray) (hb : beta < Real.pi / 2)
    (h : Shp.trapezoid mass r1 r2 t beta nx nz = .ok A) (hA : A ≠ []) : totalMass A = mass := by
  rw [Shp.trapezoid] at h; extract_lets at h
  split_ifs at h with h1 h2
  · exact absurd hb (not_lt.2 h2)
  · exact rescale_total h hA

/-- Violation: for `beta >= pi/2` the trapezoid generator silently returns massless points at the
origin instead of failing. -/
theorem C42_trapezoid_wide_is_massless (mass r1 r2 t beta : ℝ) (nx nz : ℕ) (hb : Real.pi / 2 ≤ beta)
    (hz : nz ≠ 0) (hd : Real.pi * (r2 ^ 2 - r1 ^ 2) * t ≠ 0) :
    ∃ A, Shp.trapezoid mass r1 r2 t beta nx nz = .ok A ∧ A.length = nx * nx * nz ∧ totalMass A = 0 := by
  refine ⟨_, by rw [Shp.trapezoid, if_neg (by tauto), if_pos hb], by simp, ?_⟩
  simp [totalMass]

theorem C42_outer_cone (mass r1 r2 H beta : ℝ) (nx nz : ℕ) (A : PtArray)
    (h : outerCone mass r1 r2 H beta nx nz = .ok A) (hA : A ≠ []) : totalMass A = mass := by
  rw [outerCone] at h; extract_lets at h; split_ifs at h <;> exact rescale_total h hA

theorem C42_tri_prism (mass d y1 y2 t : ℝ) (nx ny nz : ℕ) (A : PtArray)
    (h : Shp.triPrism mass d y1 y2 t nx ny nz = .ok A) : A ≠ [] ∧ totalMass A = mass := by
  rw [Shp.triPrism] at h
  split_ifs at h
  obtain ⟨h1, h2⟩ := rescale1_ok h
  rw [h2]
  exact ⟨by simpa using h1, totalMass_map h1⟩

theorem C42_tetrahedron (mass x y1 y2 z : ℝ) (nx ny nz : ℕ) (A : PtArray)
    (h : Shp.tetrahedron mass x y1 y2 z nx ny nz = .ok A) (hA : A ≠ []) : totalMass A = mass := by
  rw [Shp.tetrahedron] at h; split_ifs at h; exact rescale_total h hA

theorem C42_ngon_prism (mass H a : ℝ) (N nx nz : ℕ) (A : PtArray)
    (h : Shp.ngonPrism mass H a N nx nz = .ok A) (hA : A ≠ []) : totalMass A = mass := by
  rw [Shp.ngonPrism] at h; split_ifs at h; exact rescale_total h hA

theorem C42_pyramid (mass x y z : ℝ) (nx ny nz : ℕ) (A : PtArray)
    (h : Shp.pyramid mass x y z nx ny nz = .ok A) (hA : A ≠ []) : totalMass A = mass := by
  rw [Shp.pyramid] at h; split_ifs at h; exact rescale_total h hA

theorem C42_cylhole (mass r R : ℝ) (nx nz : ℕ) (A : PtArray)
    (h : cylhole mass r R nx nz = .ok A) (hA : A ≠ []) : totalMass A = mass := by
  rw [cylhole] at h; split_ifs at h; exact rescale_total h hA

theorem C42_platehole (mass t r theta : ℝ) (nx ny nz : ℕ) (A : PtArray)
    (h : platehole mass t r theta nx ny nz = .ok A) (hA : A ≠ []) : totalMass A = mass := by
  rw [platehole] at h; split_ifs at h; exact rescale_total h hA

/-! ## C43: every point lies in the documented solid -/

theorem C43_sphere (mass R : ℝ) (N : ℕ) (A : PtArray) (h : Shp.sphere mass R N = .ok A) :
    Inside A (ball R) := by
  rw [Shp.sphere] at h; split_ifs at h
  refine rescale_inside h fun v hv => ?_
  have := (List.mem_filter.1 hv).2
  simpa [ball, modulus] using this

/-- Finding: the sphere generator never reaches beyond the cube `|x|,|y|,|z| < R/2`, and therefore
never drops a grid point: it returns a full `N x N x N` cube. -/
theorem C43_sphere_is_a_cube (mass R : ℝ) (N : ℕ) (hR : 0 < R) (hm : mass ≠ 0) (hN : N ≠ 0) :
    ∃ A, Shp.sphere mass R N = .ok A ∧ A.length = N ^ 3 ∧ Inside A (brick R R R) := by
  have hbox : ∀ v ∈ box N N N (R / N) 0 (R / N) 0 (R / N) 0, |v 0| < R / 2 ∧ |v 1| < R / 2 ∧ |v 2| < R / 2 := by
    intro v hv
    obtain ⟨k, hk, l, hl, m, hm, h0, h1, h2⟩ := mem_box hv
    rw [h0, h1, h2]
    exact ⟨node_abs hm hR, node_abs hl hR, node_abs hk hR⟩
  have hfil : (box N N N (R / N) 0 (R / N) 0 (R / N) 0).filter
      (fun v => decide (Real.sqrt (v 0 ^ 2 + v 1 ^ 2 + v 2 ^ 2) ≤ R)) = box N N N (R / N) 0 (R / N) 0 (R / N) 0 := by
    apply List.filter_eq_self.2
    intro v hv
    obtain ⟨h0, h1, h2⟩ := hbox v hv
    rw [decide_eq_true_iff]
    apply Real.sqrt_le_iff.2 ⟨hR.le, ?_⟩
    have e0 := sq_abs (v 0); have e1 := sq_abs (v 1); have e2 := sq_abs (v 2)
    have p0 := abs_nonneg (v 0); have p1 := abs_nonneg (v 1); have p2 := abs_nonneg (v 2)
    nlinarith
  have hlen : (box N N N (R / N) 0 (R / N) 0 (R / N) 0).length = N ^ 3 := by
    rw [box, length_grid]; ring
  have hpos : 0 < N ^ 3 := by positivity
  have hne : box N N N (R / N) 0 (R / N) 0 (R / N) 0 ≠ [] := by
    intro h; rw [h] at hlen; simp at hlen; omega
  have hs : ∃ A, Shp.sphere mass R N = .ok A := by
    rw [Shp.sphere, if_neg hN]
    simp only
    rw [hfil, rescale]
    simp only [if_neg hne, List.map_const', List.sum_replicate, nsmul_eq_mul, hlen]
    rw [if_neg]
    · exact ⟨_, rfl⟩
    · have : ((N ^ 3 : ℕ) : ℝ) ≠ 0 := by exact_mod_cast hpos.ne'
      have hN' : (N : ℝ) ^ 3 ≠ 0 := by exact_mod_cast hpos.ne'
      exact mul_ne_zero this (div_ne_zero hm hN')
  obtain ⟨A, hA⟩ := hs
  refine ⟨A, hA, ?_, ?_⟩
  · rw [Shp.sphere, if_neg hN] at hA
    simp only at hA
    rw [hfil] at hA
    rw [rescale_ok hA, List.length_map, hlen]
  · rw [Shp.sphere, if_neg hN] at hA
    refine rescale_inside hA fun v hv => ?_
    obtain ⟨h0, h1, h2⟩ := hbox v (List.mem_filter.1 hv).1
    exact ⟨h0.le, h1.le, h2.le⟩

/-- The brick is filled correctly when `nx = ny`. -/
theorem C43_rectangle (mass x y z : ℝ) (nx nz : ℕ) (hx : 0 < x) (hy : 0 < y) (hz : 0 < z) (A : PtArray)
    (h : Shp.rectangle mass x y z nx nx nz = .ok A) : Inside A (brick x y z) := by
  rw [Shp.rectangle] at h
  split_ifs at h with h1
  injection h with h
  subst h
  intro p hp
  simp only [List.mem_map] at hp
  obtain ⟨v, hv, rfl⟩ := hp
  obtain ⟨k, hk, l, hl, m, hm, rfl⟩ := mem_grid.1 hv
  have e : ((l : ℝ) - ((nx : ℝ) - 1) / 2) * (y / nx) = node l nx (y / nx) 0 := by rw [node]; ring
  refine ⟨?_, ?_, ?_⟩
  · simpa using (node_abs hm hx).le
  · simp only [Matrix.cons_val_one, Matrix.cons_val_zero]; rw [e]; exact (node_abs hl hy).le
  · simpa using (node_abs hk hz).le

/-- Violation: with different grid sizes points fall outside the brick. -/
theorem C43_rectangle_outside : ∃ A, Shp.rectangle 1 1 1 1 1 3 1 = .ok A ∧ ¬ Inside A (brick 1 1 1) := by
  refine ⟨_, by rw [Shp.rectangle, if_neg (by norm_num)], ?_⟩
  intro h
  have := h ⟨1 / ((1 * 3 * 1 : ℕ) : ℝ), ![node 0 1 (1 / (1 : ℕ)) 0,
    (((2 : ℕ) : ℝ) - (((1 : ℕ) : ℝ) - 1) / 2) * (1 / ((3 : ℕ) : ℝ)), node 0 1 (1 / (1 : ℕ)) 0]⟩ (by
      apply List.mem_map.2
      refine ⟨_, mem_grid.2 ⟨0, by norm_num, 2, by norm_num, 0, by norm_num, rfl⟩, rfl⟩)
  have h2 := this.2.1
  simp at h2
  norm_num at h2

theorem sector_mem {Ri Ro beta x y : ℝ} (h1 : |arctan2 y x| ≤ beta) (h2 : Real.sqrt (x ^ 2 + y ^ 2) ≤ Ro)
    (h3 : Ri ≤ Real.sqrt (x ^ 2 + y ^ 2)) : (x, y) ∈ sector Ri Ro 0 beta := by
  have := abs_le.1 h1
  exact ⟨Real.sqrt (x ^ 2 + y ^ 2), arctan2 y x, h3, h2, by linarith [this.1], by linarith [this.2],
    (polar_x x y).symm, (polar_y x y).symm⟩

theorem C43_annulus (mass r1 r2 t : ℝ) (nx nz : ℕ) (h1 : 0 ≤ r1) (h2 : 0 ≤ r2) (ht : 0 < t) (A : PtArray)
    (h : Shp.annulus mass r1 r2 t nx nz = .ok A) : Inside A (prism t (sector r1 r2 0 Real.pi)) := by
  rw [Shp.annulus] at h; split_ifs at h
  rw [rescale1] at h
  split_ifs at h
  refine rescale_inside h fun v hv => ?_
  obtain ⟨hv1, hv2⟩ := List.mem_filter.1 hv
  obtain ⟨k, hk, l, hl, m, hm, e0, e1, e2⟩ := mem_box hv1
  rw [decide_eq_true_iff] at hv2
  have hz := node_bounds hk ht 0
  rw [← e2] at hz
  refine ⟨by linarith [hz.1], by linarith [hz.2], sector_mem ?_ ?_ ?_⟩
  · exact abs_le.2 ⟨(Complex.neg_pi_lt_arg _).le, Complex.arg_le_pi _⟩
  · exact Real.sqrt_le_iff.2 ⟨h2, hv2.2⟩
  · exact Real.le_sqrt_of_sq_le hv2.1

theorem C43_wedge (mass r1 r2 t beta : ℝ) (nx nz : ℕ) (ht : 0 < t) (A : PtArray)
    (h : Shp.wedge mass r1 r2 t beta nx nz = .ok A) : Inside A (prism t (sector r1 r2 0 beta)) := by
  rw [Shp.wedge] at h; extract_lets at h
  split_ifs at h <;>
  · refine rescale_inside h fun v hv => ?_
    obtain ⟨hv1, hv2⟩ := List.mem_filter.1 hv
    obtain ⟨k, hk, l, hl, m, hm, e0, e1, e2⟩ := mem_box hv1
    rw [decide_eq_true_iff] at hv2
    have hz := node_bounds hk ht 0
    rw [← e2] at hz
    exact ⟨by linarith [hz.1], by linarith [hz.2], sector_mem hv2.1 hv2.2.1 hv2.2.2⟩

theorem C43_cone (mass R H beta : ℝ) (nx nz : ℕ) (hR : 0 ≤ R) (hH : 0 < H) (A : PtArray)
    (h : Shp.cone mass R H beta nx nz = .ok A) : Inside A (coneOver H (sector 0 R 0 beta)) := by
  rw [Shp.cone] at h; extract_lets at h
  split_ifs at h <;>
  · refine rescale_inside h fun v hv => ?_
    obtain ⟨hv1, hv2⟩ := List.mem_filter.1 hv
    obtain ⟨k, hk, l, hl, m, hm, e0, e1, e2⟩ := mem_box hv1
    rw [decide_eq_true_iff] at hv2
    have hz := node_bounds hk hH (H / 2)
    rw [← e2] at hz
    have hs : 0 < 1 - v 2 / H := by
      have : v 2 / H < 1 := by rw [div_lt_one hH]; linarith [hz.2]
      linarith
    have hs1 : 1 - v 2 / H ≤ 1 := by
      have : 0 ≤ v 2 / H := div_nonneg (by linarith [hz.1]) hH.le
      linarith
    have hr : Real.sqrt (v 0 ^ 2 + v 1 ^ 2) ≤ R * (1 - v 2 / H) := by
      apply abs_le_of_sq_le_sq' _ (by positivity) |>.2
      rw [mul_pow]; exact hv2.2
    refine ⟨1 - v 2 / H, hs.le, hs1,
      (Real.sqrt (v 0 ^ 2 + v 1 ^ 2) / (1 - v 2 / H) * Real.cos (arctan2 (v 1) (v 0)),
       Real.sqrt (v 0 ^ 2 + v 1 ^ 2) / (1 - v 2 / H) * Real.sin (arctan2 (v 1) (v 0))),
      ⟨Real.sqrt (v 0 ^ 2 + v 1 ^ 2) / (1 - v 2 / H), arctan2 (v 1) (v 0), by positivity, ?_, ?_, ?_, rfl, rfl⟩,
      ?_, ?_, ?_⟩
    · rw [div_le_iff₀ hs]; exact hr
    · linarith [(abs_le.1 hv2.1).1]
    · linarith [(abs_le.1 hv2.1).2]
    · simp only; rw [← mul_assoc, mul_div_cancel₀ _ hs.ne', polar_x]
    · simp only; rw [← mul_assoc, mul_div_cancel₀ _ hs.ne', polar_y]
    · field_simp; ring

theorem C43_spherical_random_shell (mass r : ℝ) (hr : 0 ≤ r) (draws : List (ℝ × ℝ)) (A : PtArray)
    (h : sphericalRandomShell mass r draws = .ok A) : Inside A (shell r) := by
  rw [sphericalRandomShell] at h
  set x := draws.filter fun p => p.1 ^ 2 + p.2 ^ 2 < 1 with hx
  simp only at h
  split_ifs at h with h1
  injection h with h
  subst h
  intro p hp
  simp only [List.mem_map] at hp
  obtain ⟨q, hq, rfl⟩ := hp
  have hlt : q.1 ^ 2 + q.2 ^ 2 < 1 := by
    have := (List.mem_filter.1 hq).2; rwa [decide_eq_true_iff] at this
  have hsq : Real.sqrt (1 - (q.1 ^ 2 + q.2 ^ 2)) ^ 2 = 1 - (q.1 ^ 2 + q.2 ^ 2) := Real.sq_sqrt (by linarith)
  change modulus _ = r
  rw [modulus]
  simp only [Matrix.cons_val]
  rw [show (2 * q.1 * Real.sqrt (1 - (q.1 ^ 2 + q.2 ^ 2)) * r) ^ 2 +
      (2 * q.2 * Real.sqrt (1 - (q.1 ^ 2 + q.2 ^ 2)) * r) ^ 2 + ((1 - 2 * (q.1 ^ 2 + q.2 ^ 2)) * r) ^ 2 = r ^ 2 by
    linear_combination (4 * (q.1 ^ 2 + q.2 ^ 2) * r ^ 2) * hsq]
  exact Real.sqrt_sq hr

theorem C43_trapezoid (mass r1 r2 t beta : ℝ) (nx nz : ℕ) (h1 : 0 ≤ r1) (h2 : r1 < r2) (ht : 0 < t)
    (hb : beta < Real.pi / 2) (A : PtArray)
    (h : Shp.trapezoid mass r1 r2 t beta nx nz = .ok A) : Inside A (trapezoidSlab r1 r2 t beta) := by
  rw [Shp.trapezoid] at h; extract_lets at h
  split_ifs at h with g1 g2
  · exact absurd hb (not_lt.2 g2)
  refine rescale_inside h fun v hv => ?_
  obtain ⟨hv1, hv2⟩ := List.mem_filter.1 hv
  obtain ⟨k, hk, l, hl, m, hm, e0, e1, e2⟩ := mem_box hv1
  rw [decide_eq_true_iff] at hv2
  have hb0 : 0 ≤ beta := (abs_nonneg _).trans hv2
  have hc : 0 < Real.cos beta := Real.cos_pos_of_mem_Ioo ⟨by linarith [Real.pi_pos], hb⟩
  have hz := node_abs hk ht
  rw [← e2] at hz
  have hx := node_bounds (W := r2 * Real.cos beta - r1 * Real.cos beta) hm (by nlinarith)
    ((r2 * Real.cos beta + r1 * Real.cos beta) / 2)
  have e0' : v 0 = node m nx ((r2 * Real.cos beta - r1 * Real.cos beta) / nx)
    ((r2 * Real.cos beta + r1 * Real.cos beta) / 2) := e0
  rw [← e0'] at hx
  refine ⟨by linarith [hx.1], by linarith [hx.2], ?_, hz.le⟩
  have hx0 : 0 < v 0 := by nlinarith [hx.1]
  set th := arctan2 (v 1) (v 0) with hth
  set r := Real.sqrt (v 0 ^ 2 + v 1 ^ 2) with hr
  have px : r * Real.cos th = v 0 := polar_x (v 0) (v 1)
  have py : r * Real.sin th = v 1 := polar_y (v 0) (v 1)
  have hr0 : 0 ≤ r := Real.sqrt_nonneg _
  have hs : Real.sin (|th| - beta) ≤ 0 := Real.sin_nonpos_of_nonpos_of_neg_pi_le (by linarith)
    (by linarith [abs_nonneg th, Real.pi_pos])
  rw [Real.sin_sub, Real.cos_abs] at hs
  have hsin : |Real.sin th| = Real.sin |th| := by
    rcases abs_cases th with ⟨e, h⟩ | ⟨e, h⟩
    · rw [e, abs_of_nonneg (Real.sin_nonneg_of_nonneg_of_le_pi h (by linarith [Real.pi_pos]))]
    · rw [e, Real.sin_neg, abs_of_nonpos (Real.sin_nonpos_of_nonpos_of_neg_pi_le h.le (by linarith [Real.pi_pos]))]
  rw [← px, ← py, abs_mul, abs_of_nonneg hr0, hsin, Real.tan_eq_sin_div_cos, mul_div_assoc', le_div_iff₀ hc]
  nlinarith

theorem C43_outer_cone (mass r1 r2 H beta : ℝ) (nx nz : ℕ) (h2 : r1 < r2) (hH : 0 < H) (A : PtArray)
    (h : outerCone mass r1 r2 H beta nx nz = .ok A) : Inside A (annularCone r1 r2 H beta) := by
  rw [outerCone] at h; extract_lets at h
  split_ifs at h <;>
  · refine rescale_inside h fun v hv => ?_
    obtain ⟨hv1, hv2⟩ := List.mem_filter.1 hv
    obtain ⟨k, hk, l, hl, m, hm, e0, e1, e2⟩ := mem_box hv1
    rw [decide_eq_true_iff] at hv2
    have hz := node_bounds hk hH (H / 2)
    rw [← e2] at hz
    have hz0 : 0 ≤ v 2 := by linarith [hz.1]
    have hd : 0 < r2 - r1 := by linarith
    have hle : Real.sqrt (v 0 ^ 2 + v 1 ^ 2) ≤ r2 - v 2 * (r2 - r1) / H := by
      have := hv2.2.1
      rwa [div_div_eq_mul_div] at this
    refine ⟨Real.sqrt (v 0 ^ 2 + v 1 ^ 2), arctan2 (v 1) (v 0), hv2.2.2, ?_, hv2.1,
      (polar_x _ _).symm, (polar_y _ _).symm, hz0, ?_⟩
    · have : 0 ≤ v 2 * (r2 - r1) / H := by positivity
      linarith
    · have : v 2 * (r2 - r1) / H ≤ r2 - Real.sqrt (v 0 ^ 2 + v 1 ^ 2) := by linarith
      rw [div_le_iff₀ hH] at this
      linarith

theorem C43_tri_prism (mass d y1 y2 t : ℝ) (nx ny nz : ℕ) (hd : 0 < d) (ht : 0 < t) (A : PtArray)
    (h : Shp.triPrism mass d y1 y2 t nx ny nz = .ok A) : Inside A (prism t (triangle (d, y1) (d, y2))) := by
  rw [Shp.triPrism] at h
  split_ifs at h with hy
  rw [rescale1] at h
  split_ifs at h
  refine rescale_inside h fun v hv => ?_
  obtain ⟨hv1, hv2⟩ := List.mem_filter.1 hv
  obtain ⟨k, hk, l, hl, m, hm, e0, e1, e2⟩ := mem_box hv1
  rw [decide_eq_true_iff] at hv2
  have hz := node_bounds hk ht 0
  have hx := node_bounds hm hd (d / 2)
  rw [← e2] at hz
  rw [← e0] at hx
  refine ⟨by linarith [hz.1], by linarith [hz.2], (mem_triangle d y1 y2 hd (not_lt.1 hy) _ _).2 ?_⟩
  refine ⟨v 0 / d, div_nonneg (by linarith [hx.1]) hd.le, (div_le_one hd).2 (by linarith [hx.2]), by field_simp,
    ?_, ?_⟩
  · rw [div_mul_eq_mul_div, div_le_iff₀ hd]; exact hv2.1
  · rw [div_mul_eq_mul_div, le_div_iff₀ hd]; exact hv2.2

/-- Finding: the grid of `tri_prism` starts at `y = 0` whatever `y1` is, so the part of the solid
with `y <= 0` gets no points; -/
theorem C43_tri_prism_no_negative_y (mass d y1 y2 t : ℝ) (nx ny nz : ℕ) (A : PtArray)
    (h : Shp.triPrism mass d y1 y2 t nx ny nz = .ok A) : ∀ p ∈ A, 0 < p.pos 1 := by
  rw [Shp.triPrism] at h
  split_ifs at h with hy hz
  rw [rescale1] at h
  split_ifs at h
  refine rescale_inside (S := {v | 0 < v 1}) h fun v hv => ?_
  obtain ⟨hv1, hv2⟩ := List.mem_filter.1 hv
  obtain ⟨k, hk, l, hl, m, hm, e0, e1, e2⟩ := mem_box hv1
  have hne : y2 - y1 ≠ 0 := by rintro e; apply hz; right; right; rw [e]; ring
  have hlt : y1 < y2 := lt_of_le_of_ne (not_lt.1 hy) (fun e => hne (by rw [e]; ring))
  have hb : 0 < max 0 y2 - min 0 y1 := by
    have := le_max_right 0 y2; have := min_le_right 0 y1; linarith
  have := node_bounds hl hb ((max 0 y2 - min 0 y1) / 2)
  change 0 < v 1
  rw [e1]; linarith [this.1]

/-- in particular a prism that lies in `y <= 0` cannot be made: `IndexError`. -/
theorem C43_tri_prism_below_axis_fails (mass d y1 y2 t : ℝ) (nx ny nz : ℕ) (hd : 0 < d) (ht : 0 < t)
    (h12 : y1 < y2) (h2 : y2 ≤ 0) (hx : nx ≠ 0) (hz : nz ≠ 0) :
    Shp.triPrism mass d y1 y2 t nx ny nz = .indexError := by
  have hden : t * (y2 - y1) * d / 2 ≠ 0 := by
    have : 0 < y2 - y1 := by linarith
    positivity
  rw [Shp.triPrism, if_neg (not_lt.2 h12.le), if_neg (by tauto)]
  simp only
  rw [rescale1, if_pos]
  apply List.filter_eq_nil_iff.2
  intro v hv
  obtain ⟨k, hk, l, hl, m, hm, e0, e1, e2⟩ := mem_box hv
  rw [decide_eq_true_iff]
  rintro ⟨-, h5⟩
  have hb : 0 < max 0 y2 - min 0 y1 := by
    have := le_max_right 0 y2; have := min_le_right 0 y1; linarith
  have h6 := node_bounds hl hb ((max 0 y2 - min 0 y1) / 2)
  rw [← e1] at h6
  have h7 := node_bounds hm hd (d / 2)
  rw [← e0] at h7
  have h8 : 0 < v 1 := by linarith [h6.1]
  have h9 : 0 < v 0 := by linarith [h7.1]
  nlinarith

theorem C43_tetrahedron (mass x y1 y2 z : ℝ) (nx ny nz : ℕ) (hx : 0 < x) (hz : 0 < z) (A : PtArray)
    (h : Shp.tetrahedron mass x y1 y2 z nx ny nz = .ok A) :
    Inside A (coneOver z (triangle (x, y1) (x, y2))) := by
  rw [Shp.tetrahedron] at h
  split_ifs at h with hy
  refine rescale_inside h fun v hv => ?_
  obtain ⟨hv1, hv2⟩ := List.mem_filter.1 hv
  obtain ⟨k, hk, l, hl, m, hm, e0, e1, e2⟩ := mem_box hv1
  rw [decide_eq_true_iff] at hv2
  have hzb := node_bounds hk hz (z / 2)
  have hxb := node_bounds hm hx (x / 2)
  rw [← e2] at hzb
  rw [← e0] at hxb
  have hs : 0 < 1 - v 2 / z := by
    have : v 2 / z < 1 := by rw [div_lt_one hz]; linarith [hzb.2]
    linarith
  have hs1 : 1 - v 2 / z ≤ 1 := by
    have : 0 ≤ v 2 / z := div_nonneg (by linarith [hzb.1]) hz.le
    linarith
  have hxs : v 0 / x ≤ 1 - v 2 / z := by
    have h3 := hv2.2.2
    have : v 2 / z ≤ 1 - v 0 / x := by rw [div_le_iff₀ hz]; linarith
    linarith
  refine ⟨1 - v 2 / z, hs.le, hs1, (v 0 / (1 - v 2 / z), v 1 / (1 - v 2 / z)),
    (mem_triangle x y1 y2 hx (not_lt.1 hy) _ _).2 ?_, ?_, ?_, ?_⟩
  · refine ⟨v 0 / x / (1 - v 2 / z), div_nonneg (div_nonneg (by linarith [hxb.1]) hx.le) hs.le,
      (div_le_one hs).2 hxs, ?_, ?_, ?_⟩
    · rw [div_mul_eq_mul_div, div_mul_cancel₀ _ hx.ne']
    · rw [div_mul_eq_mul_div]
      apply div_le_div_of_nonneg_right _ hs.le
      rw [div_mul_eq_mul_div, div_le_iff₀ hx]; exact hv2.1
    · rw [div_mul_eq_mul_div]
      apply div_le_div_of_nonneg_right _ hs.le
      rw [div_mul_eq_mul_div, le_div_iff₀ hx]; exact hv2.2.1
  · simp only; rw [mul_div_cancel₀ _ hs.ne']
  · simp only; rw [mul_div_cancel₀ _ hs.ne']
  · field_simp; ring

theorem C43_ngon_prism (mass H a : ℝ) (N nx nz : ℕ) (hN : 3 ≤ N) (hH : 0 < H) (A : PtArray)
    (h : Shp.ngonPrism mass H a N nx nz = .ok A) : Inside A (prism H (regularPolygon N a 0)) := by
  rw [Shp.ngonPrism] at h
  split_ifs at h
  refine rescale_inside h fun v hv => ?_
  obtain ⟨hv1, hv2⟩ := List.mem_filter.1 hv
  obtain ⟨k, hk, l, hl, m, hm, e0, e1, e2⟩ := mem_box hv1
  rw [decide_eq_true_iff] at hv2
  have hz := node_bounds hk hH 0
  rw [← e2] at hz
  refine ⟨by linarith [hz.1], by linarith [hz.2], ?_⟩
  have hN0 : (0 : ℝ) < N := by exact_mod_cast (by omega : 0 < N)
  have hpi := Real.pi_pos
  set th := arctan2 (v 1) (v 0) with hth
  set r := Real.sqrt (v 0 ^ 2 + v 1 ^ 2) with hr
  have px : r * Real.cos th = v 0 := polar_x (v 0) (v 1)
  have py : r * Real.sin th = v 1 := polar_y (v 0) (v 1)
  have hr0 : 0 ≤ r := Real.sqrt_nonneg _
  rw [← px, ← py, polygon_polar_int hN]
  have hphi : 0 < 2 * (Real.pi / N) := by positivity
  -- the reduced angle
  obtain ⟨J, Q, hQ, hQ1, hQ2, hQc⟩ : ∃ (J : ℤ) (Q : ℝ), Q = th - 2 * Real.pi * J / N ∧ -(Real.pi / N) ≤ Q ∧
      Q ≤ Real.pi / N ∧ r * Real.cos Q ≤ a / (2 * Real.tan (Real.pi / N)) := by
    set q := pyMod th (2 * (Real.pi / N)) with hq
    have hq0 : 0 ≤ q := by
      rw [hq, pyMod]
      have := Int.floor_le (th / (2 * (Real.pi / N)))
      rw [le_div_iff₀ hphi] at this; linarith
    have hq1 : q < 2 * (Real.pi / N) := by
      rw [hq, pyMod]
      have := Int.lt_floor_add_one (th / (2 * (Real.pi / N)))
      rw [div_lt_iff₀ hphi] at this; linarith
    by_cases hc : Real.pi / N < q
    · simp only [if_pos hc] at hv2
      refine ⟨⌊th / (2 * (Real.pi / N))⌋ + 1, q - 2 * (Real.pi / N), ?_, by linarith, by linarith, hv2⟩
      rw [hq, pyMod]; push_cast; field_simp; ring
    · simp only [if_neg hc] at hv2
      refine ⟨⌊th / (2 * (Real.pi / N))⌋, q, ?_, by linarith, by linarith, hv2⟩
      rw [hq, pyMod]; field_simp
  intro j
  have e := (polygon_polar_int hN a r Q).1 ((polygon_polar a r Q).2 fun j hj =>
    (mul_le_mul_of_nonneg_left (cos_le_cos_shift hN Q hQ1 hQ2 j hj) hr0).trans hQc) (j - J)
  rw [show Q - 2 * Real.pi * ((j - J : ℤ) : ℝ) / N = th - 2 * Real.pi * j / N by
    rw [hQ]; push_cast; field_simp; ring] at e
  exact e

/-- The points fill (part of) the pyramid of half the documented base: `|x| <= x/2` at the bottom,
where the docstring has `|x| <= x`. -/
theorem C43_pyramid_half_base (mass x y z : ℝ) (nx ny nz : ℕ) (hx : 0 < x) (hy : 0 < y) (hz : 0 < z)
    (A : PtArray) (h : Shp.pyramid mass x y z nx ny nz = .ok A) :
    Inside A (coneOver z (Spec.rectangle x y)) := by
  rw [Shp.pyramid] at h
  split_ifs at h
  refine rescale_inside h fun v hv => ?_
  obtain ⟨hv1, hv2⟩ := List.mem_filter.1 hv
  obtain ⟨k, hk, l, hl, m, hm, e0, e1, e2⟩ := mem_box hv1
  rw [decide_eq_true_iff] at hv2
  have hzb := node_bounds hk hz (z / 2)
  rw [← e2] at hzb
  have hs : 0 < 1 - v 2 / z := by
    have : v 2 / z < 1 := by rw [div_lt_one hz]; linarith [hzb.2]
    linarith
  have hs1 : 1 - v 2 / z ≤ 1 := by
    have : 0 ≤ v 2 / z := div_nonneg (by linarith [hzb.1]) hz.le
    linarith
  have key : 2 * |v 0| / x ≤ 1 - v 2 / z ∧ 2 * |v 1| / y ≤ 1 - v 2 / z := by
    have aux : ∀ w, v 2 ≤ z * (1 - w) → w ≤ 1 - v 2 / z := by
      intro w hw
      have : v 2 / z ≤ 1 - w := by rw [div_le_iff₀ hz]; linarith
      linarith
    have hxy : ∀ a b : ℝ, a * y / 2 ≤ b * x / 2 → 2 * a / x ≤ 2 * b / y := by
      intro a b hab
      rw [div_le_div_iff₀ hx hy]; linarith
    have hyx : ∀ a b : ℝ, b * x / 2 ≤ a * y / 2 → 2 * b / y ≤ 2 * a / x := by
      intro a b hab
      rw [div_le_div_iff₀ hy hx]; linarith
    have c0 : ∀ w : ℝ, 2 * (-w) / x = -(2 * w / x) := fun w => by ring
    have c1 : ∀ w : ℝ, 2 * (-w) / y = -(2 * w / y) := fun w => by ring
    rcases hv2 with ⟨a1, a2, a3⟩ | ⟨a1, a2, a3⟩ | ⟨a1, a2, a3⟩ | ⟨a1, a2, a3⟩
    · have b1 := hxy (v 0) (v 1) a1
      have b2 := hxy (-v 0) (v 1) (by linarith)
      have b3 := aux _ a3
      rcases abs_cases (v 0) with ⟨e, _⟩ | ⟨e, _⟩ <;> rcases abs_cases (v 1) with ⟨e', _⟩ | ⟨e', _⟩ <;>
        rw [e, e'] <;> refine ⟨?_, ?_⟩ <;> (try rw [c0] at *) <;> (try rw [c1]) <;> linarith
    · have b1 := hxy (v 0) (-v 1) (by linarith)
      have b2 := hxy (-v 0) (-v 1) (by linarith)
      have b3 := aux (-(2 * v 1 / y)) (by linarith)
      rw [c1] at b1 b2
      rw [c0] at b2
      rcases abs_cases (v 0) with ⟨e, _⟩ | ⟨e, _⟩ <;> rcases abs_cases (v 1) with ⟨e', _⟩ | ⟨e', _⟩ <;>
        rw [e, e'] <;> refine ⟨?_, ?_⟩ <;> (try rw [c0]) <;> (try rw [c1]) <;> linarith
    · have b1 := hyx (-v 0) (v 1) (by linarith)
      have b2 := hyx (-v 0) (-v 1) (by linarith)
      have b3 := aux (-(2 * v 0 / x)) (by linarith)
      rw [c0] at b1 b2
      rcases abs_cases (v 0) with ⟨e, _⟩ | ⟨e, _⟩ <;> rcases abs_cases (v 1) with ⟨e', _⟩ | ⟨e', _⟩ <;>
        rw [e, e'] <;> refine ⟨?_, ?_⟩ <;> (try rw [c0]) <;> (try rw [c1] at *) <;> linarith
    · have b1 := hyx (v 0) (v 1) (by linarith)
      have b2 := hyx (v 0) (-v 1) (by linarith)
      have b3 := aux _ a3
      rcases abs_cases (v 0) with ⟨e, _⟩ | ⟨e, _⟩ <;> rcases abs_cases (v 1) with ⟨e', _⟩ | ⟨e', _⟩ <;>
        rw [e, e'] <;> refine ⟨?_, ?_⟩ <;> (try rw [c0]) <;> (try rw [c1] at *) <;> linarith
  refine ⟨1 - v 2 / z, hs.le, hs1, (v 0 / (1 - v 2 / z), v 1 / (1 - v 2 / z)), ⟨?_, ?_⟩, ?_, ?_, ?_⟩
  · simp only; rw [abs_div, abs_of_pos hs, div_le_iff₀ hs]
    have := key.1
    rw [div_le_iff₀ hx] at this; linarith
  · simp only; rw [abs_div, abs_of_pos hs, div_le_iff₀ hs]
    have := key.2
    rw [div_le_iff₀ hy] at this; linarith
  · simp only; rw [mul_div_cancel₀ _ hs.ne']
  · simp only; rw [mul_div_cancel₀ _ hs.ne']
  · field_simp; ring

theorem C43_pyramid (mass x y z : ℝ) (nx ny nz : ℕ) (hx : 0 < x) (hy : 0 < y) (hz : 0 < z)
    (A : PtArray) (h : Shp.pyramid mass x y z nx ny nz = .ok A) :
    Inside A (coneOver z (Spec.rectangle (2 * x) (2 * y))) := by
  intro p hp
  obtain ⟨s, h0, h1, b, hb, h2⟩ := C43_pyramid_half_base mass x y z nx ny nz hx hy hz A h p hp
  exact ⟨s, h0, h1, b, ⟨hb.1.trans (by linarith), hb.2.trans (by linarith)⟩, h2⟩

/-- The larger cylinder has its axis along x (as the `R` line of the docstring says; its first
sentence says along y). -/
theorem C43_cylhole (mass r R : ℝ) (nx nz : ℕ) (A : PtArray) (h : cylhole mass r R nx nz = .ok A) :
    Inside A (drilledCylinder r R) := by
  rw [cylhole] at h
  split_ifs at h
  refine rescale_inside h fun v hv => ?_
  have hv2 := (List.mem_filter.1 hv).2
  rw [decide_eq_true_iff] at hv2
  exact ⟨(Real.sqrt_le_iff.1 hv2.1).2, (Real.sqrt_le_iff.1 hv2.2).2⟩

/-- The points lie inside the tilted hole.  They do not fill it: the code keeps
`y^2 + (x - z tan theta)^2 <= r^2`, i.e. the circle of radius `r` is taken in horizontal planes
(`C43_platehole_narrow`). -/
theorem C43_platehole (mass t r theta : ℝ) (nx ny nz : ℕ) (ht : 0 < t) (hc : Real.cos theta ≠ 0) (A : PtArray)
    (h : platehole mass t r theta nx ny nz = .ok A) : Inside A (drilledPlate t r theta) := by
  rw [platehole] at h
  split_ifs at h
  refine rescale_inside h fun v hv => ?_
  obtain ⟨hv1, hv2⟩ := List.mem_filter.1 hv
  obtain ⟨k, hk, l, hl, m, hm, e0, e1, e2⟩ := mem_box hv1
  rw [decide_eq_true_iff] at hv2
  have hz := node_abs hk ht
  rw [← e2] at hz
  refine ⟨hz.le, ?_⟩
  have e : v 0 * Real.cos theta - v 2 * Real.sin theta = Real.cos theta * (v 0 - v 2 * Real.tan theta) := by
    rw [Real.tan_eq_sin_div_cos]; field_simp
  rw [e, mul_pow]
  have h1 : Real.cos theta ^ 2 ≤ 1 := Real.cos_sq_le_one theta
  nlinarith [sq_nonneg (v 0 - v 2 * Real.tan theta)]

theorem C43_platehole_narrow (mass t r theta : ℝ) (nx ny nz : ℕ) (A : PtArray) (hc : Real.cos theta ≠ 0)
    (h : platehole mass t r theta nx ny nz = .ok A) :
    ∀ p ∈ A, (p.pos 0 * Real.cos theta - p.pos 2 * Real.sin theta) ^ 2 ≤ (r * Real.cos theta) ^ 2 := by
  rw [platehole] at h
  split_ifs at h
  refine rescale_inside (S := {v | (v 0 * Real.cos theta - v 2 * Real.sin theta) ^ 2 ≤ (r * Real.cos theta) ^ 2})
    h fun v hv => ?_
  have hv2 := (List.mem_filter.1 hv).2
  rw [decide_eq_true_iff] at hv2
  have e : v 0 * Real.cos theta - v 2 * Real.sin theta = Real.cos theta * (v 0 - v 2 * Real.tan theta) := by
    rw [Real.tan_eq_sin_div_cos]; field_simp
  change (v 0 * Real.cos theta - v 2 * Real.sin theta) ^ 2 ≤ (r * Real.cos theta) ^ 2
  rw [e, mul_pow, mul_pow, mul_comm]
  apply mul_le_mul_of_nonneg_right _ (sq_nonneg _)
  nlinarith [sq_nonneg (v 1)]

end Newt

