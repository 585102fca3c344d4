import Verif.Props.GlibConverge2

/-!
# C85: the generators whose point array does not converge to the documented solid

However fine the grid is made, these arrays miss a part of the documented solid.
-/

namespace Newt

open MeasureTheory Filter Topology Spec Shp

/-- Arrays that stay in a closed set `T` do not approximate a solid with an open part outside `T`. -/
theorem not_approximates {ι : Type*} {F : Filter ι} [F.NeBot] {A : ι → Out} {mass : ℝ} {S T U : Set V3} (hm : mass ≠ 0)
    (hS : IsCompact S) (hT : IsClosed T) (hTne : T.Nonempty) (hin : ∀ᶠ n in F, ∀ B, A n = .ok B → Inside B T)
    (hU : IsOpen U) (hne : U.Nonempty) (hUS : U ⊆ S) (hUT : ∀ v ∈ U, v ∉ T) : ¬ Approximates F A mass S := by
  rintro ⟨B, hB, -, -, hlim⟩
  have hf : Continuous fun v : V3 => Metric.infDist v T := Metric.continuous_infDist_pt T
  have h1 := hlim _ hf.continuousOn
  have h0 : Tendsto (fun n => ((B n).map fun p => p.mass * Metric.infDist p.pos T).sum) F (𝓝 0) := by
    refine tendsto_const_nhds.congr' ?_
    filter_upwards [hB, hin] with n hn hn'
    have := hn' _ hn
    symm
    apply List.sum_eq_zero
    intro x hx
    obtain ⟨p, hp, rfl⟩ := List.mem_map.1 hx
    rw [Metric.infDist_zero_of_mem (this p hp), mul_zero]
  have e := tendsto_nhds_unique h1 h0
  have hvol : volume S ≠ 0 := vol_ne_of_open hU hne hUS
  have hv : 0 < (volume S).toReal := ENNReal.toReal_pos hvol hS.measure_lt_top.ne
  have hint : IntegrableOn (fun v : V3 => Metric.infDist v T) S := hf.continuousOn.integrableOn_compact hS
  have hpos : 0 < ∫ v in S, Metric.infDist v T := by
    rw [setIntegral_pos_iff_support_of_nonneg_ae (Eventually.of_forall fun v => Metric.infDist_nonneg) hint]
    refine lt_of_lt_of_le (hU.measure_pos volume hne) (measure_mono fun v hv => ⟨?_, hUS hv⟩)
    exact ((hT.notMem_iff_infDist_pos hTne).1 (hUT v hv)).ne'
  exact (mul_ne_zero (div_ne_zero hm hv.ne') hpos.ne') e

/-- `sphere` does not converge to a ball. -/
theorem C85_sphere (mass R : ℝ) (hm : mass ≠ 0) (hR : 0 < R) :
    ¬ Approximates atTop (fun N : ℕ => Shp.sphere mass R N) mass (ball R) := by
  refine not_approximates (T := brick R R R) (U := {v : V3 | R / 2 < v 0} ∩ {v : V3 | v 0 ^ 2 + v 1 ^ 2 + v 2 ^ 2 < R ^ 2}) hm
    (ball_compact R) (brick_closed _ _ _) ⟨![0, 0, 0], ?_⟩ ?_ ?_ ?_ ?_ ?_
  · simp only [brick, Set.mem_setOf_eq, Matrix.cons_val, abs_zero]
    exact ⟨by linarith, by linarith, by linarith⟩
  · filter_upwards [eventually_gt_atTop 0] with N hN B hB
    obtain ⟨A, hA, -, hin⟩ := C43_sphere_is_a_cube mass R N hR hm hN.ne'
    rw [hA] at hB
    injection hB with hB
    rwa [← hB]
  · exact (isOpen_lt (by fun_prop) (by fun_prop)).inter (isOpen_lt (by fun_prop) (by fun_prop))
  · refine ⟨![3 / 4 * R, 0, 0], ?_⟩
    simp only [Set.mem_inter_iff, Set.mem_setOf_eq, Matrix.cons_val]
    exact ⟨by linarith, by nlinarith⟩
  · intro v hv
    simp only [Set.mem_inter_iff, Set.mem_setOf_eq] at hv
    change Real.sqrt (v 0 ^ 2 + v 1 ^ 2 + v 2 ^ 2) ≤ R
    rw [Real.sqrt_le_left hR.le]
    exact hv.2.le
  · intro v hv h
    simp only [Set.mem_inter_iff, Set.mem_setOf_eq] at hv
    have := (abs_le.1 h.1).2
    linarith [hv.1]

/-- `rectangle` with `nx : ny = a : b`, `a != b`, does not converge to the documented box. -/
theorem C85_rectangle (mass x y z : ℝ) (a b : ℕ) (hm : mass ≠ 0) (hx : 0 < x) (hy : 0 < y) (hz : 0 < z)
    (ha : 0 < a) (hb : 0 < b) (hab : a ≠ b) :
    ¬ Approximates atTop (fun n : ℕ × ℕ => Shp.rectangle mass x y z (a * n.1) (b * n.1) n.2) mass (brick x y z) := by
  intro h
  have h2 := C84_rectangle_shifted mass x y z a b hm hx hy hz ha hb
  set d := y * ((b : ℝ) - a) / (2 * b) with hd
  have hb0 : (0 : ℝ) < b := by exact_mod_cast hb
  have hd0 : d ≠ 0 := by
    rw [hd]
    refine div_ne_zero (mul_ne_zero hy.ne' (sub_ne_zero.2 ?_)) (by positivity)
    exact_mod_cast hab.symm
  -- the mean y coordinate tells the two apart
  obtain ⟨B, hB, -, -, hl⟩ := h
  obtain ⟨B', hB', -, -, hl'⟩ := h2
  have hc : Continuous fun v : V3 => v 1 := by fun_prop
  have l1 := hl _ hc.continuousOn
  have l2 := hl' _ hc.continuousOn
  have e := tendsto_nhds_unique (l1.congr' (by
    filter_upwards [hB, hB'] with n h1 h2
    rw [h1] at h2
    injection h2 with h2
    rw [h2])) l2
  -- translate the box
  have hmp : MeasurePreserving (fun v : V3 => v + ![0, d, 0]) volume volume := measurePreserving_add_right volume _
  have hpre : (fun v : V3 => v + ![0, d, 0]) ⁻¹' (shiftY d (brick x y z)) = brick x y z := by
    ext v
    simp [shiftY, brick, Matrix.vecHead, Matrix.vecTail]
  have hemb : MeasurableEmbedding (fun v : V3 => v + ![0, d, 0]) := (Homeomorph.addRight _).measurableEmbedding
  have hv : volume (shiftY d (brick x y z)) = volume (brick x y z) := by
    rw [← hmp.measure_preimage_emb hemb, hpre]
  have hi : ∫ v in shiftY d (brick x y z), v 1 = ∫ v in brick x y z, (v 1 + d) := by
    rw [← hmp.setIntegral_preimage_emb hemb (fun v : V3 => v 1) (shiftY d (brick x y z)), hpre]
    simp
  have hcomp : IsCompact (brick x y z) := compact_of_box (brick_closed _ _ _) _ _ (brick_box _ _ _)
  have hvol := ENNReal.toReal_pos (brick_vol hx hy hz) hcomp.measure_lt_top.ne
  rw [hv, hi, integral_add (hc.continuousOn.integrableOn_compact hcomp) (integrableOn_const hcomp.measure_lt_top.ne),
    setIntegral_const, smul_eq_mul, Measure.real, mul_add] at e
  have : mass / (volume (brick x y z)).toReal * ((volume (brick x y z)).toReal * d) = mass * d := by
    field_simp
  rw [this] at e
  have : mass * d = 0 := by linarith
  rcases mul_eq_zero.1 this with h | h
  · exact hm h
  · exact hd0 h

theorem coneOver_rectangle_compact {x y z : ℝ} (hx : 0 < x) (hy : 0 < y) (hz : 0 < z) :
    IsCompact (coneOver z (Spec.rectangle x y)) := by
  have hmem := mem_coneOver_rectangle hx hy hz
  refine compact_of_box (W := ![x, y, z]) (c := ![0, 0, z / 2]) ?_ ?_
  · have heq : coneOver z (Spec.rectangle x y) = {v : V3 | 0 ≤ v 2} ∩ ({v : V3 | v 2 ≤ z} ∩
        ({v : V3 | 2 * |v 0| * z ≤ x * (z - v 2)} ∩ {v : V3 | 2 * |v 1| * z ≤ y * (z - v 2)})) := by
      ext v; rw [hmem]; rfl
    rw [heq]
    exact (isClosed_le (by fun_prop) (by fun_prop)).inter ((isClosed_le (by fun_prop) (by fun_prop)).inter
      ((isClosed_le (by fun_prop) (by fun_prop)).inter (isClosed_le (by fun_prop) (by fun_prop))))
  · intro v hv
    obtain ⟨g0, g1, g2, g3⟩ := (hmem v).1 hv
    refine forall_fin3 ?_ ?_ ?_ <;> simp only [Matrix.cons_val, sub_zero]
    · have : 2 * |v 0| * z ≤ x * z := g2.trans (by nlinarith)
      have := le_of_mul_le_mul_right this hz; linarith
    · have : 2 * |v 1| * z ≤ y * z := g3.trans (by nlinarith)
      have := le_of_mul_le_mul_right this hz; linarith
    · rw [abs_le]; constructor <;> linarith

/-- `pyramid` does not converge to the pyramid over the documented base `|X| <= x`, `|Y| <= y`. -/
theorem C85_pyramid (mass x y z : ℝ) (hm : mass ≠ 0) (hx : 0 < x) (hy : 0 < y) (hz : 0 < z) :
    ¬ Approximates atTop (fun n : ℕ × ℕ × ℕ => Shp.pyramid mass x y z n.1 n.2.1 n.2.2) mass
      (coneOver z (Spec.rectangle (2 * x) (2 * y))) := by
  have hx2 : 0 < 2 * x := by linarith
  have hy2 : 0 < 2 * y := by linarith
  refine not_approximates (T := coneOver z (Spec.rectangle x y)) (U := {v : V3 | 0 < v 2} ∩ ({v : V3 | v 2 < z} ∩
        ({v : V3 | 2 * |v 0| * z < 2 * x * (z - v 2)} ∩ ({v : V3 | x * (z - v 2) < 2 * |v 0| * z} ∩
          {v : V3 | 2 * |v 1| * z < 2 * y * (z - v 2)})))) hm
    (coneOver_rectangle_compact hx2 hy2 hz) (coneOver_rectangle_compact hx hy hz).isClosed ⟨![0, 0, 0], ?_⟩ ?_ ?_ ?_ ?_ ?_
  · rw [mem_coneOver_rectangle hx hy hz]
    simp only [Matrix.cons_val, abs_zero]
    exact ⟨le_rfl, hz.le, by nlinarith [mul_pos hx hz], by nlinarith [mul_pos hy hz]⟩
  · exact Eventually.of_forall fun n B hB => C43_pyramid_half_base mass x y z n.1 n.2.1 n.2.2 hx hy hz B hB
  · exact (isOpen_lt (by fun_prop) (by fun_prop)).inter ((isOpen_lt (by fun_prop) (by fun_prop)).inter
      ((isOpen_lt (by fun_prop) (by fun_prop)).inter ((isOpen_lt (by fun_prop) (by fun_prop)).inter
        (isOpen_lt (by fun_prop) (by fun_prop)))))
  · refine ⟨![3 / 8 * x, 0, z / 2], ?_⟩
    simp only [Set.mem_inter_iff, Set.mem_setOf_eq, Matrix.cons_val, abs_zero]
    rw [abs_of_pos (by positivity)]
    have := mul_pos hx hz
    have := mul_pos hy hz
    refine ⟨by linarith, by linarith, by nlinarith, by nlinarith, by nlinarith⟩
  · intro v hv
    simp only [Set.mem_inter_iff, Set.mem_setOf_eq] at hv
    rw [mem_coneOver_rectangle hx2 hy2 hz]
    exact ⟨hv.1.le, hv.2.1.le, hv.2.2.1.le, hv.2.2.2.2.le⟩
  · intro v hv h
    simp only [Set.mem_inter_iff, Set.mem_setOf_eq] at hv
    rw [mem_coneOver_rectangle hx hy hz] at h
    linarith [h.2.2.1, hv.2.2.2.1]

/-- `tri_prism` with `y1 < 0` does not converge to the documented prism. -/
theorem C85_tri_prism (mass d y1 y2 t : ℝ) (hm : mass ≠ 0) (hd : 0 < d) (h1 : y1 < 0) (h12 : y1 < y2) (ht : 0 < t) :
    ¬ Approximates atTop (fun n : ℕ × ℕ × ℕ => Shp.triPrism mass d y1 y2 t n.1 n.2.1 n.2.2) mass
      (prism t (triangle (d, y1) (d, y2))) := by
  refine not_approximates (T := {v : V3 | 0 ≤ v 1}) (U := {v : V3 | |v 2| < t / 2} ∩ ({v : V3 | 0 < v 0} ∩
        ({v : V3 | v 0 < d} ∩ ({v : V3 | v 0 * y1 < v 1 * d} ∩ ({v : V3 | v 1 * d < v 0 * y2} ∩ {v : V3 | v 1 < 0}))))) hm
    (prism_compact _ _ (triangle_compact _ _)) (isClosed_le (by fun_prop) (by fun_prop)) ⟨0, by simp⟩ ?_ ?_ ?_ ?_ ?_
  · exact Eventually.of_forall fun n B hB p hp => (C43_tri_prism_no_negative_y mass d y1 y2 t n.1 n.2.1 n.2.2 B hB p hp).le
  · exact (isOpen_lt (by fun_prop) (by fun_prop)).inter ((isOpen_lt (by fun_prop) (by fun_prop)).inter
      ((isOpen_lt (by fun_prop) (by fun_prop)).inter ((isOpen_lt (by fun_prop) (by fun_prop)).inter
        ((isOpen_lt (by fun_prop) (by fun_prop)).inter (isOpen_lt (by fun_prop) (by fun_prop))))))
  · have hmn : y1 < min 0 y2 := lt_min h1 h12
    have ha := min_le_left 0 y2
    have hb := min_le_right 0 y2
    refine ⟨![d / 2, (y1 + min 0 y2) / 4, 0], ?_⟩
    simp only [Set.mem_inter_iff, Set.mem_setOf_eq, Matrix.cons_val, abs_zero]
    refine ⟨by linarith, by linarith, by linarith, by nlinarith, by nlinarith, by linarith⟩
  · intro v hv
    simp only [Set.mem_inter_iff, Set.mem_setOf_eq] at hv
    have := abs_lt.1 hv.1
    exact ⟨by linarith, by linarith, (mem_triangle_iff hd h12.le _ _).2
      ⟨hv.2.1.le, hv.2.2.1.le, hv.2.2.2.1.le, hv.2.2.2.2.1.le⟩⟩
  · intro v hv h
    simp only [Set.mem_inter_iff, Set.mem_setOf_eq] at hv h
    linarith [hv.2.2.2.2.2]

theorem tetrahedron_y_nonneg (mass x y1 y2 z : ℝ) (nx ny nz : ℕ) (A : PtArray)
    (h : Shp.tetrahedron mass x y1 y2 z nx ny nz = .ok A) : ∀ p ∈ A, 0 < p.pos 1 := by
  rw [Shp.tetrahedron] at h
  split_ifs at h with hy hz
  refine rescale_inside (S := {v | 0 < v 1}) h fun v hv => ?_
  obtain ⟨hv1, hv2⟩ := List.mem_filter.1 hv
  obtain ⟨k, hk, l, hl, m, hm, e0, e1, e2⟩ := Shp.mem_box hv1
  have hne : y2 - y1 ≠ 0 := by rintro e; apply hz; right; right; rw [e]; ring
  have hlt : y1 < y2 := lt_of_le_of_ne (not_lt.1 hy) (fun e => hne (by rw [e]; ring))
  have hb : 0 < max 0 y2 - min 0 y1 := by
    rcases le_or_gt y2 0 with h | h
    · have := le_max_left 0 y2; have := min_le_right 0 y1; linarith
    · have := le_max_right 0 y2; have := min_le_left 0 y1; linarith
  have := (node_bounds hl hb ((max 0 y2 - min 0 y1) / 2)).1
  change 0 < v 1
  rw [e1]; linarith

/-- `tetrahedron` with `y1 < 0` does not converge to the documented tetrahedron. -/
theorem C85_tetrahedron (mass x y1 y2 z : ℝ) (hm : mass ≠ 0) (hx : 0 < x) (h1 : y1 < 0) (h12 : y1 < y2) (hz : 0 < z) :
    ¬ Approximates atTop (fun n : ℕ × ℕ × ℕ => Shp.tetrahedron mass x y1 y2 z n.1 n.2.1 n.2.2) mass
      (coneOver z (triangle (x, y1) (x, y2))) := by
  refine not_approximates (T := {v : V3 | 0 ≤ v 1}) (U := {v : V3 | 0 < v 2} ∩ ({v : V3 | 0 < v 0} ∩
        ({v : V3 | v 0 * z + v 2 * x < x * z} ∩ ({v : V3 | v 0 * y1 < v 1 * x} ∩ ({v : V3 | v 1 * x < v 0 * y2} ∩ {v : V3 | v 1 < 0}))))) hm
    (coneOver_compactV _ _ (triangle_compact _ _)) (isClosed_le (by fun_prop) (by fun_prop)) ⟨0, by simp⟩ ?_ ?_ ?_ ?_ ?_
  · exact Eventually.of_forall fun n B hB p hp => (tetrahedron_y_nonneg mass x y1 y2 z n.1 n.2.1 n.2.2 B hB p hp).le
  · exact (isOpen_lt (by fun_prop) (by fun_prop)).inter ((isOpen_lt (by fun_prop) (by fun_prop)).inter
      ((isOpen_lt (by fun_prop) (by fun_prop)).inter ((isOpen_lt (by fun_prop) (by fun_prop)).inter
        ((isOpen_lt (by fun_prop) (by fun_prop)).inter (isOpen_lt (by fun_prop) (by fun_prop))))))
  · have hmn : y1 < min 0 y2 := lt_min h1 h12
    have ha := min_le_left 0 y2
    have hb := min_le_right 0 y2
    refine ⟨![x / 2, (y1 + min 0 y2) / 4, z / 4], ?_⟩
    simp only [Set.mem_inter_iff, Set.mem_setOf_eq, Matrix.cons_val]
    refine ⟨by linarith, by linarith, by nlinarith [mul_pos hx hz], by nlinarith, by nlinarith, by linarith⟩
  · intro v hv
    simp only [Set.mem_inter_iff, Set.mem_setOf_eq] at hv
    exact (mem_coneOver_triangle hx hz h12.le v).2 ⟨hv.1.le, hv.2.1.le, hv.2.2.1.le, hv.2.2.2.1.le, hv.2.2.2.2.1.le⟩
  · intro v hv h
    simp only [Set.mem_inter_iff, Set.mem_setOf_eq] at hv h
    linarith [hv.2.2.2.2.2]

/-- `platehole` with a really tilted hole does not converge to the material the hole removes. -/
theorem C85_platehole (mass t r theta : ℝ) (hm : mass ≠ 0) (ht : 0 < t) (hr : 0 < r) (h0 : theta ≠ 0)
    (h1 : -(Real.pi / 2) < theta) (h2 : theta < Real.pi / 2) :
    ¬ Approximates atTop (fun n : ℕ × ℕ × ℕ => Shp.platehole mass t r theta n.1 n.2.1 n.2.2) mass
      (drilledPlate t r theta) := by
  have hc : 0 < Real.cos theta := Real.cos_pos_of_mem_Ioo ⟨h1, h2⟩
  have hc1 : Real.cos theta < 1 := by
    rw [← Real.cos_abs, ← Real.cos_zero]
    refine Real.cos_lt_cos_of_nonneg_of_le_pi_div_two le_rfl (abs_le.2 ⟨h1.le, h2.le⟩) (abs_pos.2 h0)
  have hcl : IsClosed (drilledPlate t r theta) := by
    have : IsClosed ({v : V3 | |v 2| ≤ t / 2} ∩ {v : V3 | v 1 ^ 2 + (v 0 * Real.cos theta - v 2 * Real.sin theta) ^ 2 ≤ r ^ 2}) :=
      (isClosed_le (by fun_prop) (by fun_prop)).inter (isClosed_le (by fun_prop) (by fun_prop))
    exact this
  have hcomp : IsCompact (drilledPlate t r theta) := by
    refine compact_of_box (W := ![2 * ((r + t / 2) / Real.cos theta), 2 * r, t]) (c := ![0, 0, 0]) hcl ?_
    rintro v ⟨g2, g⟩
    have a1 : |v 1| ≤ r := abs_le_of_sq_le_sq (by nlinarith [sq_nonneg (v 0 * Real.cos theta - v 2 * Real.sin theta)]) hr.le
    have a0 : |v 0 * Real.cos theta - v 2 * Real.sin theta| ≤ r := abs_le_of_sq_le_sq (by nlinarith [sq_nonneg (v 1)]) hr.le
    refine forall_fin3 ?_ ?_ ?_ <;> simp only [Matrix.cons_val, sub_zero]
    · rw [mul_div_cancel_left₀ _ two_ne_zero, le_div_iff₀ hc]
      have b : |v 2 * Real.sin theta| ≤ t / 2 := by
        rw [abs_mul]
        exact (mul_le_of_le_one_right (abs_nonneg _) (Real.abs_sin_le_one _)).trans g2
      have := abs_add_le (v 0 * Real.cos theta - v 2 * Real.sin theta) (v 2 * Real.sin theta)
      rw [sub_add_cancel, abs_mul, abs_of_pos hc] at this
      linarith
    · linarith
    · exact g2
  refine not_approximates (T := {v : V3 | (v 0 * Real.cos theta - v 2 * Real.sin theta) ^ 2 ≤ (r * Real.cos theta) ^ 2})
    (U := {v : V3 | |v 2| < t / 2} ∩ ({v : V3 | v 1 ^ 2 + (v 0 * Real.cos theta - v 2 * Real.sin theta) ^ 2 < r ^ 2} ∩
      {v : V3 | (r * Real.cos theta) ^ 2 < (v 0 * Real.cos theta - v 2 * Real.sin theta) ^ 2})) hm
    hcomp (isClosed_le (by fun_prop) (by fun_prop)) ⟨0, ?_⟩ ?_ ?_ ?_ ?_ ?_
  · simp only [Set.mem_setOf_eq, Pi.zero_apply, zero_mul, sub_zero, ne_eq, OfNat.ofNat_ne_zero, not_false_eq_true, zero_pow]
    exact sq_nonneg _
  · exact Eventually.of_forall fun n B hB => C43_platehole_narrow mass t r theta n.1 n.2.1 n.2.2 B hc.ne' hB
  · exact (isOpen_lt (by fun_prop) (by fun_prop)).inter ((isOpen_lt (by fun_prop) (by fun_prop)).inter
      (isOpen_lt (by fun_prop) (by fun_prop)))
  · refine ⟨![r * (1 + Real.cos theta) / 2 / Real.cos theta, 0, 0], ?_⟩
    simp only [Set.mem_inter_iff, Set.mem_setOf_eq, Matrix.cons_val, abs_zero, zero_mul, sub_zero]
    rw [div_mul_cancel₀ _ hc.ne']
    have : r * Real.cos theta < r := by nlinarith
    have : 0 < r * Real.cos theta := by positivity
    refine ⟨by linarith, by nlinarith, by nlinarith⟩
  · intro v hv
    simp only [Set.mem_inter_iff, Set.mem_setOf_eq] at hv
    exact ⟨hv.1.le, hv.2.1.le⟩
  · intro v hv h
    simp only [Set.mem_inter_iff, Set.mem_setOf_eq] at hv h
    linarith [hv.2.2]

/-! ## Instances -/

example : ¬ Approximates atTop (fun N : ℕ => Shp.sphere 2 1 N) 2 (ball 1) := C85_sphere 2 1 (by norm_num) (by norm_num)

example : ¬ Approximates atTop (fun n : ℕ × ℕ => Shp.rectangle 2 1 3 5 (1 * n.1) (2 * n.1) n.2) 2 (brick 1 3 5) :=
  C85_rectangle 2 1 3 5 1 2 (by norm_num) (by norm_num) (by norm_num) (by norm_num) (by norm_num) (by norm_num) (by norm_num)

example : ¬ Approximates atTop (fun n : ℕ × ℕ × ℕ => Shp.triPrism 2 1 (-1) 1 5 n.1 n.2.1 n.2.2) 2
    (prism 5 (triangle (1, -1) (1, 1))) :=
  C85_tri_prism 2 1 (-1) 1 5 (by norm_num) (by norm_num) (by norm_num) (by norm_num) (by norm_num)

example : ¬ Approximates atTop (fun n : ℕ × ℕ × ℕ => Shp.platehole 2 1 3 (Real.pi / 4) n.1 n.2.1 n.2.2) 2
    (drilledPlate 1 3 (Real.pi / 4)) :=
  C85_platehole 2 1 3 _ (by norm_num) (by norm_num) (by norm_num) (by positivity) (by linarith [Real.pi_pos])
    (by linarith [Real.pi_pos])

end Newt
