import Verif.Spec.YukawaSheet
import Verif.Proofs.YukSlab
import Verif.Props.Sheet

/-!
# C111: the Yukawa field of plates and sheets
-/

namespace Newt

open Spec Filter Topology MeasureTheory

theorem yField_cont (l : ℝ) (p : V3) (S : Set V3) (h : ∀ v ∈ S, modulus (v - p) ≠ 0) (i : Fin 3) : ContinuousOn (fun v => yField l (v - p) i) S := by
  unfold yField yukW
  refine ContinuousOn.mul (ContinuousOn.div (f := fun v : V3 => Real.exp (-modulus (v - p) / l) * (1 + modulus (v - p) / l))
    (g := fun v : V3 => modulus (v - p) ^ 3) ?_ ?_ fun v hv => pow_ne_zero _ (h v hv)) ?_
  · unfold modulus
    simp only [Pi.sub_apply]
    fun_prop
  · unfold modulus
    simp only [Pi.sub_apply]
    fun_prop
  · simp only [Pi.sub_apply]; fun_prop

/-- the Yukawa force of arrays that fill a plate on a point above it -/
theorem yplate_limit (alpha l m mass r1 r2 t : ℝ) (hl : l ≠ 0) (p : V3) (hm : mass ≠ 0) (h1 : 0 ≤ r1) (h2 : r1 < r2) (ht : 0 < t) (hp : t / 2 < p 2) :
    ∃ f : ℕ × ℕ → V3, (∀ᶠ n in atTop, ∃ B T, Shp.annulus mass r1 r2 t n.1 n.2 = .ok B ∧ point_matrix_yukawa [⟨m, p⟩] B alpha l = some (f n, T)) ∧
      ∀ i, Tendsto (fun n => f n i) atTop
        (𝓝 (alpha * BIG_G * m * (mass / (Real.pi * (r2 ^ 2 - r1 ^ 2) * t)) * ∫ v in plateSet r1 r2 t, yField l (v - p) i)) := by
  obtain ⟨B, hB, hF⟩ := C84_annulus mass r1 r2 t hm h1 h2 ht
  rw [plateSet_eq h1 (h1.trans h2.le)] at hF
  have hne : ∀ v ∈ plateSet r1 r2 t, modulus (v - p) ≠ 0 := fun v hv => by
    have := above_gap (p := p) hv.1
    intro e; linarith
  refine ⟨fun n => totF (yW alpha l) [⟨m, p⟩] (B n), ?_, fun i => ?_⟩
  · filter_upwards [hB, hF.inside] with n e hin
    refine ⟨B n, _, e, pmy_some hl ?_⟩
    intro a ha b hb e
    rw [List.mem_singleton] at ha
    subst ha
    have := hne _ (hin b hb)
    rw [← e] at this
    exact this ((modulus_eq_zero _).2 (by simp))
  · have h := (hF.tends (fun v => yField l (v - p) i) (yField_cont l p _ hne i)).const_mul (alpha * BIG_G * m)
    rw [plateSet_vol h1 h2.le ht, ← mul_assoc] at h
    refine h.congr fun n => ?_
    change _ = totF (yW alpha l) [⟨m, p⟩] (B n) i
    rw [totF, List.map_singleton, List.sum_singleton, list_sum_apply, List.map_map, ← List.sum_map_mul_left]
    congr 1
    apply List.map_congr_left
    intro b _
    simp only [Function.comp, yW, yField, yukW, Pi.smul_apply, smul_eq_mul]
    generalize modulus (b.pos - p) = r
    by_cases hr : r = 0
    · subst hr; simp
    · have e : 1 / r ^ 3 + 1 / (r ^ 2 * l) = (1 + r / l) / r ^ 3 := by field_simp
      rw [e]; ring

/-- C111: on the axis of a plate with a concentric hole the Yukawa forces of the arrays of `annulus` tend, in the limit of fine grids, to
the closed form. -/
theorem C111_on_axis (alpha l m mass r1 r2 t h : ℝ) (hl : 0 < l) (hm : mass ≠ 0) (h1 : 0 ≤ r1) (h2 : r1 < r2) (ht : 0 < t) (hh : t / 2 < h) :
    ∃ f : ℕ × ℕ → V3, (∀ᶠ n in atTop, ∃ B T, Shp.annulus mass r1 r2 t n.1 n.2 = .ok B ∧
        point_matrix_yukawa [⟨m, ![0, 0, h]⟩] B alpha l = some (f n, T)) ∧
      Tendsto f atTop (𝓝 ![0, 0, -(alpha * BIG_G * m * (mass / (Real.pi * (r2 ^ 2 - r1 ^ 2) * t)) * yukPlateField l r1 r2 t h)]) := by
  obtain ⟨f, e, hf⟩ := yplate_limit alpha l m mass r1 r2 t hl.ne' ![0, 0, h] hm h1 h2 ht (by simpa using hh)
  refine ⟨f, e, tendsto_pi_nhds.2 fun i => ?_⟩
  have := hf i
  fin_cases i
  · rw [yplate_xy l hl r1 r2 t h h1 h2.le ht.le hh _ (by decide), mul_zero] at this
    exact this
  · rw [yplate_xy l hl r1 r2 t h h1 h2.le ht.le hh _ (by decide), mul_zero] at this
    exact this
  · have e2 := yplate_z l hl r1 r2 t h h1 h2.le ht.le hh
    simp only [Fin.reduceFinMk] at this ⊢
    rw [e2] at this
    convert this using 2
    simp only [Matrix.cons_val, yukPlateField]
    ring

/-! ## Points off the axis -/

theorem yplateAt_int (l R t x y h : ℝ) (i : Fin 3) :
    ∫ v in plateSet 0 R t, yField l (v - ![x, y, h]) i = ∫ u in plateAt R t x y, yField l (u - ![0, 0, h]) i := by
  have key := (measurePreserving_add_right (volume : Measure V3) ![x, y, 0]).setIntegral_preimage_emb
    (measurableEmbedding_addRight (![x, y, 0] : V3)) (fun v => yField l (v - ![x, y, h]) i) (plateSet 0 R t)
  rw [← key, plateAt_preimage]
  congr 1
  funext u
  have e : u + ![x, y, 0] - ![x, y, h] = u - ![0, 0, h] := by
    funext j; fin_cases j <;> simp <;> rfl
  rw [e]

theorem yplate_integrable (l : ℝ) {r1 r2 t h : ℝ} (h1 : 0 ≤ r1) (h2 : 0 ≤ r2) (hh : t / 2 < h) (i : Fin 3) :
    IntegrableOn (fun v => yField l (v - ![0, 0, h]) i) (plateSet r1 r2 t) := by
  apply ContinuousOn.integrableOn_compact (plateSet_compact h1 h2)
  apply yField_cont
  intro v hv e
  have := gap_le (h := h) hv.1
  linarith

theorem yukPlate_zero {l R t h : ℝ} (hl : 0 < l) (hR : 0 ≤ R) (hh : t / 2 < h) (ht : 0 ≤ t) :
    yukSheetField l t h - 2 * Real.pi * l * Real.exp (-R / l) ≤ yukPlateField l 0 R t h ∧ yukPlateField l 0 R t h ≤ yukSheetField l t h := by
  have hpi := Real.pi_pos
  have hc : 0 < 2 * Real.pi * l := by positivity
  have e : yukPlateField l 0 R t h = yukSheetField l t h
      - 2 * Real.pi * l * (Real.exp (-Real.sqrt (R ^ 2 + (h - t / 2) ^ 2) / l) - Real.exp (-Real.sqrt (R ^ 2 + (h + t / 2) ^ 2) / l)) := by
    rw [yukPlateField, yukSheetField, zero_pow two_ne_zero, zero_add, zero_add, Real.sqrt_sq (by linarith), Real.sqrt_sq (by linarith)]
    ring
  have g1 : R ≤ Real.sqrt (R ^ 2 + (h - t / 2) ^ 2) := Real.le_sqrt_of_sq_le (by nlinarith [sq_nonneg (h - t / 2)])
  have g2 : Real.sqrt (R ^ 2 + (h - t / 2) ^ 2) ≤ Real.sqrt (R ^ 2 + (h + t / 2) ^ 2) := by
    apply Real.sqrt_le_sqrt; nlinarith
  have k1 : Real.exp (-Real.sqrt (R ^ 2 + (h - t / 2) ^ 2) / l) ≤ Real.exp (-R / l) := by
    apply Real.exp_le_exp.2; gcongr
  have k2 : Real.exp (-Real.sqrt (R ^ 2 + (h + t / 2) ^ 2) / l) ≤ Real.exp (-Real.sqrt (R ^ 2 + (h - t / 2) ^ 2) / l) := by
    apply Real.exp_le_exp.2; gcongr
  have k3 := Real.exp_pos (-Real.sqrt (R ^ 2 + (h + t / 2) ^ 2) / l)
  rw [e]
  constructor <;> nlinarith

theorem ysheet_z (l R t x y h s : ℝ) (hl : 0 < l) (ht : 0 < t) (hh : t / 2 < h) (hs : 0 ≤ s) (hsR : s < R) (hxy : x ^ 2 + y ^ 2 ≤ s ^ 2) :
    yukSheetField l t h - 2 * Real.pi * l * Real.exp (-(R - s) / l) ≤ -∫ v in plateSet 0 R t, yField l (v - ![x, y, h]) 2 ∧
    -∫ v in plateSet 0 R t, yField l (v - ![x, y, h]) 2 ≤ yukSheetField l t h := by
  rw [yplateAt_int, ← integral_neg]
  have hR : 0 < R := lt_of_le_of_lt hs hsR
  have hint : ∀ r, 0 ≤ r → IntegrableOn (fun v => -yField l (v - ![0, 0, h]) 2) (plateSet 0 r t) := fun r hr => (yplate_integrable l le_rfl hr hh 2).neg
  have hpos : ∀ v : V3, |v 2| ≤ t / 2 → 0 ≤ -yField l (v - ![0, 0, h]) 2 := by
    intro v hv
    have hm := modulus_nonneg (v - ![0, 0, h])
    rw [yField, ← mul_neg]
    apply mul_nonneg (by rw [yukW]; positivity)
    simp only [Pi.sub_apply, Matrix.cons_val]
    linarith [(abs_le.1 hv).2]
  have hval : ∀ r, 0 ≤ r → ∫ v in plateSet 0 r t, -yField l (v - ![0, 0, h]) 2 = yukPlateField l 0 r t h := by
    intro r hr
    rw [integral_neg, yplate_z l hl 0 r t h le_rfl hr ht.le hh, neg_neg, yukPlateField]
  constructor
  · have hle : ∫ v in plateSet 0 (R - s) t, -yField l (v - ![0, 0, h]) 2 ≤ ∫ u in plateAt R t x y, -yField l (u - ![0, 0, h]) 2 := by
      apply setIntegral_mono_set ((hint (R + s) (by linarith)).mono_set (plateAt_sub_slab hs hR.le hxy))
      · exact (ae_restrict_iff' (plateAt_measurable _ _ _ _)).2 (Eventually.of_forall fun v hv => hpos v hv.1)
      · exact LE.le.eventuallyLE (plateSet_sub_plateAt hs hsR.le hxy)
    rw [hval _ (by linarith)] at hle
    exact (yukPlate_zero hl (by linarith) hh ht.le).1.trans hle
  · have hle : ∫ u in plateAt R t x y, -yField l (u - ![0, 0, h]) 2 ≤ ∫ v in plateSet 0 (R + s) t, -yField l (v - ![0, 0, h]) 2 := by
      apply setIntegral_mono_set (hint (R + s) (by linarith))
      · exact (ae_restrict_iff' (plateSet_closed _ _ _).measurableSet).2 (Eventually.of_forall fun v hv => hpos v hv.1)
      · exact LE.le.eventuallyLE (plateAt_sub_slab hs hR.le hxy)
    rw [hval _ (by linarith)] at hle
    exact hle.trans (yukPlate_zero hl (by linarith) hh ht.le).2

theorem ysheet_xy (l R t x y h s : ℝ) (hl : 0 < l) (ht : 0 < t) (hh : t / 2 < h) (hs : 0 ≤ s) (hsR : s < R) (hxy : x ^ 2 + y ^ 2 ≤ s ^ 2) (i : Fin 3) (hi : i ≠ 2) :
    |∫ v in plateSet 0 R t, yField l (v - ![x, y, h]) i| ≤
      Real.pi * t * (s * (2 * R - s) / (R - s) ^ 2) * (Real.exp (-(R - s) / l) * (1 + (R - s) / l)) := by
  have hpi := Real.pi_pos
  have hR : 0 < R := lt_of_le_of_lt hs hsR
  have hRs : 0 < R - s := by linarith
  have hsub := plateSet_sub_plateAt (t := t) hs hsR.le hxy
  have hm := (plateSet_closed 0 (R - s) t).measurableSet
  have hI : IntegrableOn (fun v => yField l (v - ![0, 0, h]) i) (plateAt R t x y) :=
    (yplate_integrable l le_rfl (by linarith : 0 ≤ R + s) hh i).mono_set (plateAt_sub_slab hs hR.le hxy)
  have hsplit := integral_diff hm hI hsub
  rw [yplate_xy l hl 0 (R - s) t h le_rfl hRs.le ht.le hh i hi, sub_zero] at hsplit
  rw [yplateAt_int, ← hsplit]
  have hfin : volume (plateAt R t x y) ≠ ⊤ := by rw [plateAt_vol]; exact (plateSet_compact le_rfl hR.le).measure_lt_top.ne
  have hvol : volume.real (plateAt R t x y \ plateSet 0 (R - s) t) = Real.pi * t * (s * (2 * R - s)) := by
    rw [measureReal_sdiff hsub hm hfin, measureReal_def, measureReal_def, plateAt_vol, plateSet_vol le_rfl hR.le ht, plateSet_vol le_rfl hRs.le ht]
    ring
  have hb := norm_setIntegral_le_of_norm_le_const (μ := volume) (s := plateAt R t x y \ plateSet 0 (R - s) t)
    (f := fun v => yField l (v - ![0, 0, h]) i) (C := Real.exp (-(R - s) / l) * (1 + (R - s) / l) / (R - s) ^ 2)
    (lt_of_le_of_lt (measure_mono Set.sdiff_subset) (lt_top_iff_ne_top.2 hfin)) (by
      rintro v ⟨hv, hv'⟩
      rw [Real.norm_eq_abs]
      apply yField_le l hl _ _ hRs
      rw [modulus]
      apply Real.le_sqrt_of_sq_le
      simp only [Pi.sub_apply, Matrix.cons_val, sub_zero]
      by_contra hc
      push Not at hc
      exact hv' ⟨hv.1, by rw [zero_pow two_ne_zero]; positivity, by nlinarith [sq_nonneg (v 2 - h)]⟩)
  rw [Real.norm_eq_abs, hvol] at hb
  refine hb.trans (le_of_eq ?_)
  ring

/-- C111: at any point above a uniform round sheet whose edge is many ranges away the arrays of `annulus` with no hole attract, in the
limit of fine grids, straight down as the infinite sheet, up to errors that decay exponentially with the distance `R - s` of the edge. -/
theorem C111_sheet (alpha l m rho R t x y h s : ℝ) (hl : 0 < l) (ha : 0 ≤ alpha) (hm : 0 ≤ m) (hrho : 0 < rho) (ht : 0 < t) (hh : t / 2 < h)
    (hs : 0 ≤ s) (hsR : s < R) (hxy : x ^ 2 + y ^ 2 ≤ s ^ 2) :
    ∃ (f : ℕ × ℕ → V3) (F : V3), (∀ᶠ n in atTop, ∃ B T, Shp.annulus (rho * (Real.pi * R ^ 2 * t)) 0 R t n.1 n.2 = .ok B ∧
        point_matrix_yukawa [⟨m, ![x, y, h]⟩] B alpha l = some (f n, T)) ∧ Tendsto f atTop (𝓝 F) ∧
      alpha * BIG_G * m * rho * (yukSheetField l t h - 2 * Real.pi * l * Real.exp (-(R - s) / l)) ≤ -F 2 ∧
      -F 2 ≤ alpha * BIG_G * m * rho * yukSheetField l t h ∧
      ∀ i, i ≠ 2 → |F i| ≤ alpha * BIG_G * m * rho *
        (Real.pi * t * (s * (2 * R - s) / (R - s) ^ 2) * (Real.exp (-(R - s) / l) * (1 + (R - s) / l))) := by
  have hG := BIG_G_pos
  have hpi := Real.pi_pos
  have hR : 0 < R := lt_of_le_of_lt hs hsR
  obtain ⟨f, e, hf⟩ := yplate_limit alpha l m (rho * (Real.pi * R ^ 2 * t)) 0 R t hl.ne' ![x, y, h] (by positivity) le_rfl hR ht (by simpa using hh)
  have hden : rho * (Real.pi * R ^ 2 * t) / (Real.pi * (R ^ 2 - 0 ^ 2) * t) = rho := by
    field_simp
    ring
  rw [hden] at hf
  have hc : 0 ≤ alpha * BIG_G * m * rho := by positivity
  refine ⟨f, fun i => alpha * BIG_G * m * rho * ∫ v in plateSet 0 R t, yField l (v - ![x, y, h]) i, e, tendsto_pi_nhds.2 hf, ?_, ?_, ?_⟩
  · have := mul_le_mul_of_nonneg_left (ysheet_z l R t x y h s hl ht hh hs hsR hxy).1 hc
    simp only; linarith
  · have := mul_le_mul_of_nonneg_left (ysheet_z l R t x y h s hl ht hh hs hsR hxy).2 hc
    simp only; linarith
  · intro i hi
    simp only
    rw [abs_mul, abs_of_nonneg hc]
    exact mul_le_mul_of_nonneg_left (ysheet_xy l R t x y h s hl ht hh hs hsR hxy i hi) hc

theorem exp_neg_div_tendsto {l s : ℝ} (hl : 0 < l) : Tendsto (fun R : ℝ => Real.exp (-(R - s) / l)) atTop (𝓝 0) := by
  refine Real.tendsto_exp_atBot.comp ?_
  have h1 : Tendsto (fun R : ℝ => (R - s) / l) atTop atTop := (tendsto_atTop_add_const_right atTop (-s) tendsto_id).atTop_div_const hl
  exact (tendsto_neg_atTop_atBot.comp h1).congr fun R => by simp only [Function.comp]; ring

/-- C111: the infinite sheet: at every point above it the Yukawa force tends, as the radius grows at a fixed density, to the closed form,
independent of the position over the sheet. -/
theorem C111_infinite_sheet (alpha l m rho t x y h : ℝ) (hl : 0 < l) (ha : 0 ≤ alpha) (hm : 0 ≤ m) (hrho : 0 < rho) (ht : 0 < t) (hh : t / 2 < h) :
    ∃ (f : ℝ → ℕ × ℕ → V3) (F : ℝ → V3), (∀ᶠ R in atTop, (∀ᶠ n in atTop, ∃ B T,
        Shp.annulus (rho * (Real.pi * R ^ 2 * t)) 0 R t n.1 n.2 = .ok B ∧ point_matrix_yukawa [⟨m, ![x, y, h]⟩] B alpha l = some (f R n, T)) ∧
        Tendsto (f R) atTop (𝓝 (F R))) ∧
      Tendsto F atTop (𝓝 ![0, 0, -(alpha * BIG_G * m * rho * yukSheetField l t h)]) := by
  set s := Real.sqrt (x ^ 2 + y ^ 2) with hs
  have hs0 : 0 ≤ s := Real.sqrt_nonneg _
  have hxy : x ^ 2 + y ^ 2 ≤ s ^ 2 := by rw [hs, Real.sq_sqrt (by positivity)]
  have key : ∀ R : ℝ, ∃ (f : ℕ × ℕ → V3) (F : V3), s < R → ((∀ᶠ n in atTop, ∃ B T, Shp.annulus (rho * (Real.pi * R ^ 2 * t)) 0 R t n.1 n.2 = .ok B ∧
        point_matrix_yukawa [⟨m, ![x, y, h]⟩] B alpha l = some (f n, T)) ∧ Tendsto f atTop (𝓝 F) ∧
      alpha * BIG_G * m * rho * (yukSheetField l t h - 2 * Real.pi * l * Real.exp (-(R - s) / l)) ≤ -F 2 ∧
      -F 2 ≤ alpha * BIG_G * m * rho * yukSheetField l t h ∧
      ∀ i, i ≠ 2 → |F i| ≤ alpha * BIG_G * m * rho *
        (Real.pi * t * (s * (2 * R - s) / (R - s) ^ 2) * (Real.exp (-(R - s) / l) * (1 + (R - s) / l)))) := by
    intro R
    by_cases h : s < R
    · obtain ⟨f, F, hF⟩ := C111_sheet alpha l m rho R t x y _ s hl ha hm hrho ht hh hs0 h hxy
      exact ⟨f, F, fun _ => hF⟩
    · exact ⟨fun _ => 0, 0, fun h' => absurd h' h⟩
  choose f F hF using key
  have hE : Tendsto (fun R : ℝ => Real.exp (-(R - s) / l)) atTop (𝓝 0) := exp_neg_div_tendsto hl
  have h1 : Tendsto (fun R : ℝ => R - s) atTop atTop := tendsto_atTop_add_const_right _ _ tendsto_id
  have h2 : Tendsto (fun R : ℝ => (R - s)⁻¹) atTop (𝓝 0) := tendsto_inv_atTop_zero.comp h1
  set c := alpha * BIG_G * m * rho
  have hz : Tendsto (fun R : ℝ => c * (yukSheetField l t h - 2 * Real.pi * l * Real.exp (-(R - s) / l))) atTop (𝓝 (c * yukSheetField l t h)) := by
    have := ((hE.const_mul (2 * Real.pi * l)).const_sub (yukSheetField l t h)).const_mul c
    simpa using this
  have hxyl : Tendsto (fun R : ℝ => c * (Real.pi * t * (s * (2 * R - s) / (R - s) ^ 2) * (Real.exp (-(R - s) / l) * (1 + (R - s) / l)))) atTop (𝓝 0) := by
    have h3 : Tendsto (fun R : ℝ => c * (Real.pi * t * s) * ((2 + s * (R - s)⁻¹) * ((R - s)⁻¹ + 1 / l) * Real.exp (-(R - s) / l))) atTop
        (𝓝 (c * (Real.pi * t * s) * ((2 + s * 0) * (0 + 1 / l) * 0))) :=
      (((((h2.const_mul s).const_add 2).mul (h2.add_const (1 / l))).mul hE).const_mul (c * (Real.pi * t * s)))
    rw [mul_zero, mul_zero] at h3
    refine h3.congr' ?_
    filter_upwards [eventually_gt_atTop s] with R hR
    have : R - s ≠ 0 := by linarith
    generalize Real.exp (-(R - s) / l) = E
    field_simp
    ring
  refine ⟨f, F, ?_, tendsto_pi_nhds.2 fun i => ?_⟩
  · filter_upwards [eventually_gt_atTop s] with R hR
    exact ⟨(hF R hR).1, (hF R hR).2.1⟩
  · fin_cases i
    · exact squeeze_zero_norm' (by
        filter_upwards [eventually_gt_atTop s] with R hR
        exact (hF R hR).2.2.2.2 0 (by decide)) hxyl
    · exact squeeze_zero_norm' (by
        filter_upwards [eventually_gt_atTop s] with R hR
        exact (hF R hR).2.2.2.2 1 (by decide)) hxyl
    · have : Tendsto (fun R => -F R 2) atTop (𝓝 (c * yukSheetField l t h)) := by
        refine tendsto_of_tendsto_of_tendsto_of_le_of_le' hz tendsto_const_nhds ?_ ?_
        · filter_upwards [eventually_gt_atTop s] with R hR
          exact (hF R hR).2.2.1
        · filter_upwards [eventually_gt_atTop s] with R hR
          exact (hF R hR).2.2.2.1
      have h' := this.neg
      simp only [neg_neg] at h'
      exact h'

/-- C111: the field of the infinite sheet falls by the factor `e^(-d/l)` when the point is lifted by `d`, and tends to the Newtonian
`2 pi t` as the range grows. -/
theorem C111_sheet_profile (t h : ℝ) : (∀ l d : ℝ, yukSheetField l t (h + d) = Real.exp (-d / l) * yukSheetField l t h) ∧
    Tendsto (fun l : ℝ => yukSheetField l t h) atTop (𝓝 (2 * Real.pi * t)) := by
  constructor
  · intro l d
    rw [yukSheetField, yukSheetField, show -(h + d - t / 2) / l = -d / l + -(h - t / 2) / l by ring,
      show -(h + d + t / 2) / l = -d / l + -(h + t / 2) / l by ring, Real.exp_add, Real.exp_add]
    ring
  · have key : ∀ a : ℝ, Tendsto (fun l : ℝ => l * (Real.exp (-a / l) - 1)) atTop (𝓝 (-a)) := by
      intro a
      have d : HasDerivAt (fun u : ℝ => Real.exp (-a * u)) (-a) 0 := by
        have := ((hasDerivAt_id (0 : ℝ)).const_mul (-a)).exp
        simpa using this
      have h0 : Tendsto (fun l : ℝ => l⁻¹) atTop (𝓝[≠] 0) := by
        refine tendsto_nhdsWithin_iff.2 ⟨tendsto_inv_atTop_zero, ?_⟩
        filter_upwards [eventually_gt_atTop 0] with l hl
        exact inv_ne_zero hl.ne'
      refine (d.tendsto_slope.comp h0).congr fun l => ?_
      simp only [Function.comp, slope_def_field, mul_zero, Real.exp_zero, sub_zero, div_inv_eq_mul]
      rw [mul_comm, div_eq_mul_inv]
    have := ((key (h - t / 2)).sub (key (h + t / 2))).const_mul (2 * Real.pi)
    rw [show 2 * Real.pi * (-(h - t / 2) - -(h + t / 2)) = 2 * Real.pi * t by ring] at this
    refine this.congr fun l => ?_
    rw [yukSheetField]; ring

/-- Instance: a plate of radius 5 with a hole of radius 1, range 2, a unit mass at the height 1. -/
example : ∃ f : ℕ × ℕ → V3, (∀ᶠ n in atTop, ∃ B T, Shp.annulus 3 1 5 (1 / 2) n.1 n.2 = .ok B ∧
      point_matrix_yukawa [⟨1, ![0, 0, 1]⟩] B 1 2 = some (f n, T)) ∧
    Tendsto f atTop (𝓝 ![0, 0, -(1 * BIG_G * 1 * (3 / (Real.pi * (5 ^ 2 - 1 ^ 2) * (1 / 2))) * yukPlateField 2 1 5 (1 / 2) 1)]) :=
  C111_on_axis 1 2 1 3 1 5 (1 / 2) 1 (by norm_num) (by norm_num) (by norm_num) (by norm_num) (by norm_num) (by norm_num)

/-- Instance: the sheet of radius 140 and thickness 0.01 of the test-suite, range 1, seen from a point at most 2 from its axis. -/
example : ∃ (f : ℕ × ℕ → V3) (F : V3), (∀ᶠ n in atTop, ∃ B T, Shp.annulus (1 * (Real.pi * 140 ^ 2 * 0.01)) 0 140 0.01 n.1 n.2 = .ok B ∧
    point_matrix_yukawa [⟨1, ![1, 1, 1.5]⟩] B 1 1 = some (f n, T)) ∧ Tendsto f atTop (𝓝 F) ∧
    -F 2 ≤ 1 * BIG_G * 1 * 1 * yukSheetField 1 0.01 1.5 := by
  obtain ⟨f, F, h1, h2, -, h4, -⟩ := C111_sheet 1 1 1 1 140 0.01 1 1 1.5 2 (by norm_num) (by norm_num) (by norm_num) (by norm_num) (by norm_num)
    (by norm_num) (by norm_num) (by norm_num) (by norm_num)
  exact ⟨f, F, h1, h2, h4⟩

end Newt
