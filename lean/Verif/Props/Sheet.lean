import Verif.Spec.Sheet
import Verif.Proofs.SlabInt
import Verif.Proofs.MpcShapes
import Verif.Props.GlibConverge
import Verif.Props.Rings

/-!
# C109: the field of plates and sheets
-/

namespace Newt

open Spec Filter Topology MeasureTheory

theorem plateSet_eq {r1 r2 t : ℝ} (h1 : 0 ≤ r1) (h2 : 0 ≤ r2) : prism t (sector r1 r2 0 Real.pi) = plateSet r1 r2 t := by
  rw [prism_sector_eq h1 h2 Real.pi_pos le_rfl]
  ext v
  simp only [plateSet, Set.mem_inter_iff, Set.mem_setOf_eq, Real.cos_pi, Real.sin_pi]
  have := abs_nonneg (v 1)
  constructor
  · rintro ⟨a, b, c, -⟩; exact ⟨a, b, c⟩
  · rintro ⟨a, b, c⟩; exact ⟨a, b, c, by linarith⟩

theorem plateSet_vol {r1 r2 t : ℝ} (h1 : 0 ≤ r1) (h2 : r1 ≤ r2) (ht : 0 < t) :
    (volume (plateSet r1 r2 t)).toReal = Real.pi * (r2 ^ 2 - r1 ^ 2) * t := by
  rw [← plateSet_eq h1 (h1.trans h2), prism_vol t ht, area_sector r1 r2 0 Real.pi h1 h2 Real.pi_pos.le le_rfl]
  ring

theorem above_gap {t : ℝ} {p v : V3} (hv : |v 2| ≤ t / 2) : p 2 - t / 2 ≤ modulus (v - p) := by
  have h2 := abs_le.1 (abs_coord_le (v - p) 2)
  have h3 := abs_le.1 hv
  simp only [Pi.sub_apply] at h2
  linarith [h2.1, h3.2]

theorem sqField_cont (p : V3) (S : Set V3) (h : ∀ v ∈ S, modulus (v - p) ≠ 0) (i : Fin 3) : ContinuousOn (fun v => sqField (v - p) i) S := by
  unfold sqField
  refine ContinuousOn.div (f := fun v : V3 => (v - p) i) (g := fun v : V3 => modulus (v - p) ^ 3) ?_ ?_ fun v hv => pow_ne_zero _ (h v hv)
  · simp only [Pi.sub_apply]; fun_prop
  · unfold modulus
    simp only [Pi.sub_apply]
    fun_prop

/-- the force of arrays that fill a plate on a point above it -/
theorem plate_limit (m mass r1 r2 t : ℝ) (p : V3) (hm : mass ≠ 0) (h1 : 0 ≤ r1) (h2 : r1 < r2) (ht : 0 < t) (hp : t / 2 < p 2) :
    ∃ f : ℕ × ℕ → V3, (∀ᶠ n in atTop, ∃ B T, Shp.annulus mass r1 r2 t n.1 n.2 = .ok B ∧ point_matrix_gravity [⟨m, p⟩] B = some (f n, T)) ∧
      ∀ i, Tendsto (fun n => f n i) atTop
        (𝓝 (BIG_G * m * (mass / (Real.pi * (r2 ^ 2 - r1 ^ 2) * t)) * ∫ v in plateSet r1 r2 t, sqField (v - p) i)) := by
  obtain ⟨B, hB, hF⟩ := C84_annulus mass r1 r2 t hm h1 h2 ht
  rw [plateSet_eq h1 (h1.trans h2.le)] at hF
  have hne : ∀ v ∈ plateSet r1 r2 t, modulus (v - p) ≠ 0 := fun v hv => by
    have := above_gap (p := p) hv.1
    intro e; linarith
  refine ⟨fun n => totF gW [⟨m, p⟩] (B n), ?_, fun i => ?_⟩
  · filter_upwards [hB, hF.inside] with n e hin
    refine ⟨B n, _, e, pmg_some ?_⟩
    intro a ha b hb e
    rw [List.mem_singleton] at ha
    subst ha
    have := hne _ (hin b hb)
    rw [← e] at this
    exact this ((modulus_eq_zero _).2 (by simp))
  · have h := (hF.tends (fun v => sqField (v - p) i) (sqField_cont p _ hne i)).const_mul (BIG_G * m)
    rw [plateSet_vol h1 h2.le ht, ← mul_assoc] at h
    refine h.congr fun n => ?_
    change _ = totF gW [⟨m, p⟩] (B n) i
    rw [totF, List.map_singleton, List.sum_singleton, list_sum_apply, List.map_map, ← List.sum_map_mul_left]
    congr 1
    apply List.map_congr_left
    intro b _
    simp only [Function.comp, gW, sqField, Pi.smul_apply, smul_eq_mul]
    ring

/-- C109: on the axis of a plate with a concentric hole the arrays of `annulus` attract, in the limit of fine grids, as the textbook
formula says. -/
theorem C109_on_axis (m mass r1 r2 t h : ℝ) (hm : mass ≠ 0) (h1 : 0 ≤ r1) (h2 : r1 < r2) (ht : 0 < t) (hh : t / 2 < h) :
    ∃ f : ℕ × ℕ → V3, (∀ᶠ n in atTop, ∃ B T, Shp.annulus mass r1 r2 t n.1 n.2 = .ok B ∧
        point_matrix_gravity [⟨m, ![0, 0, h]⟩] B = some (f n, T)) ∧
      Tendsto f atTop (𝓝 ![0, 0, -(BIG_G * m * (mass / (Real.pi * (r2 ^ 2 - r1 ^ 2) * t)) * plateField r1 r2 t h)]) := by
  obtain ⟨f, e, hf⟩ := plate_limit m mass r1 r2 t ![0, 0, h] hm h1 h2 ht (by simpa using hh)
  refine ⟨f, e, tendsto_pi_nhds.2 fun i => ?_⟩
  have := hf i
  fin_cases i
  · rw [plateSet_xy r1 r2 t h h1 h2.le ht.le hh _ (by decide), mul_zero] at this
    exact this
  · rw [plateSet_xy r1 r2 t h h1 h2.le ht.le hh _ (by decide), mul_zero] at this
    exact this
  · have e2 := plateSet_z r1 r2 t h h1 h2.le ht.le hh
    simp only [Fin.reduceFinMk] at this ⊢
    rw [e2] at this
    convert this using 2
    simp only [Matrix.cons_val, plateField]
    ring

/-! ## Points off the axis -/

/-- the plate seen from a point beside the axis -/
def plateAt (R t x y : ℝ) : Set V3 := {u | |u 2| ≤ t / 2 ∧ (u 0 + x) ^ 2 + (u 1 + y) ^ 2 ≤ R ^ 2}

theorem plateAt_preimage (R t x y : ℝ) : plateAt R t x y = (fun u : V3 => u + ![x, y, 0]) ⁻¹' plateSet 0 R t := by
  ext u
  simp only [plateAt, plateSet, Set.mem_setOf_eq, Set.mem_preimage, Pi.add_apply, Matrix.cons_val, add_zero]
  constructor
  · rintro ⟨a, b⟩; exact ⟨a, by rw [zero_pow two_ne_zero]; positivity, b⟩
  · rintro ⟨a, -, b⟩; exact ⟨a, b⟩

theorem plateAt_measurable (R t x y : ℝ) : MeasurableSet (plateAt R t x y) := by
  rw [plateAt_preimage]
  exact (plateSet_closed _ _ _).measurableSet.preimage (measurable_id.add_const _)

theorem plateAt_int (R t x y h : ℝ) (i : Fin 3) :
    ∫ v in plateSet 0 R t, sqField (v - ![x, y, h]) i = ∫ u in plateAt R t x y, sqField (u - ![0, 0, h]) i := by
  have key := (measurePreserving_add_right (volume : Measure V3) ![x, y, 0]).setIntegral_preimage_emb
    (measurableEmbedding_addRight (![x, y, 0] : V3)) (fun v => sqField (v - ![x, y, h]) i) (plateSet 0 R t)
  rw [← key, plateAt_preimage]
  congr 1
  funext u
  have e : u + ![x, y, 0] - ![x, y, h] = u - ![0, 0, h] := by
    funext j; fin_cases j <;> simp <;> rfl
  rw [e]

theorem plateAt_vol (R t x y : ℝ) : volume (plateAt R t x y) = volume (plateSet 0 R t) := by
  rw [plateAt_preimage]
  exact (measurePreserving_add_right (volume : Measure V3) ![x, y, 0]).measure_preimage_emb
    (measurableEmbedding_addRight (![x, y, 0] : V3)) _

theorem cauchy2 {a b x y A B : ℝ} (hA : 0 ≤ A) (hB : 0 ≤ B) (h1 : a ^ 2 + b ^ 2 ≤ A ^ 2) (h2 : x ^ 2 + y ^ 2 ≤ B ^ 2) :
    |a * x + b * y| ≤ A * B := by
  apply abs_le_of_sq_le_sq _ (mul_nonneg hA hB)
  calc (a * x + b * y) ^ 2 ≤ (a ^ 2 + b ^ 2) * (x ^ 2 + y ^ 2) := by nlinarith [sq_nonneg (a * y - b * x)]
    _ ≤ A ^ 2 * B ^ 2 := by gcongr
    _ = (A * B) ^ 2 := by ring

theorem plateSet_sub_plateAt {R t x y s : ℝ} (hs : 0 ≤ s) (hsR : s ≤ R) (hxy : x ^ 2 + y ^ 2 ≤ s ^ 2) : plateSet 0 (R - s) t ⊆ plateAt R t x y := by
  rintro u ⟨h1, -, h3⟩
  refine ⟨h1, ?_⟩
  have := (abs_le.1 (cauchy2 (by linarith) hs h3 hxy)).2
  nlinarith

theorem plateAt_sub_slab {R t x y s : ℝ} (hs : 0 ≤ s) (hR : 0 ≤ R) (hxy : x ^ 2 + y ^ 2 ≤ s ^ 2) : plateAt R t x y ⊆ plateSet 0 (R + s) t := by
  rintro u ⟨h1, h3⟩
  refine ⟨h1, by rw [zero_pow two_ne_zero]; positivity, ?_⟩
  have := (abs_le.1 (cauchy2 hR hs h3 hxy)).1
  nlinarith

theorem plateSet_compact {r1 r2 t : ℝ} (h1 : 0 ≤ r1) (h2 : 0 ≤ r2) : IsCompact (plateSet r1 r2 t) := by
  rw [← plateSet_eq h1 h2]; exact prism_compact _ _ (sector_compact _ _ _ _)

theorem plateSet_integrable {r1 r2 t h : ℝ} (h1 : 0 ≤ r1) (h2 : 0 ≤ r2) (hh : t / 2 < h) (i : Fin 3) :
    IntegrableOn (fun v => sqField (v - ![0, 0, h]) i) (plateSet r1 r2 t) := by
  apply ContinuousOn.integrableOn_compact (plateSet_compact h1 h2)
  apply sqField_cont
  intro v hv e
  have := gap_le (h := h) hv.1
  linarith

theorem plateField_zero {R t h : ℝ} (hh : t / 2 < h) (ht : 0 ≤ t) :
    plateField 0 R t h = 2 * Real.pi * (t - (Real.sqrt (R ^ 2 + (h + t / 2) ^ 2) - Real.sqrt (R ^ 2 + (h - t / 2) ^ 2))) := by
  rw [plateField, zero_pow two_ne_zero, zero_add, zero_add, Real.sqrt_sq (by linarith), Real.sqrt_sq (by linarith)]
  ring

theorem sqrt_gap {R t h : ℝ} (hR : 0 < R) (hh : t / 2 < h) (ht : 0 ≤ t) :
    0 ≤ Real.sqrt (R ^ 2 + (h + t / 2) ^ 2) - Real.sqrt (R ^ 2 + (h - t / 2) ^ 2) ∧
    Real.sqrt (R ^ 2 + (h + t / 2) ^ 2) - Real.sqrt (R ^ 2 + (h - t / 2) ^ 2) ≤ t * (h / R) := by
  have hle : Real.sqrt (R ^ 2 + (h - t / 2) ^ 2) ≤ Real.sqrt (R ^ 2 + (h + t / 2) ^ 2) := by
    apply Real.sqrt_le_sqrt; nlinarith
  refine ⟨by linarith, ?_⟩
  have s1 := Real.sq_sqrt (show 0 ≤ R ^ 2 + (h + t / 2) ^ 2 by positivity)
  have s2 := Real.sq_sqrt (show 0 ≤ R ^ 2 + (h - t / 2) ^ 2 by positivity)
  have g1 : R ≤ Real.sqrt (R ^ 2 + (h + t / 2) ^ 2) := Real.le_sqrt_of_sq_le (by nlinarith [sq_nonneg (h + t / 2)])
  have g2 : R ≤ Real.sqrt (R ^ 2 + (h - t / 2) ^ 2) := Real.le_sqrt_of_sq_le (by nlinarith [sq_nonneg (h - t / 2)])
  set u := Real.sqrt (R ^ 2 + (h + t / 2) ^ 2)
  set w := Real.sqrt (R ^ 2 + (h - t / 2) ^ 2)
  rw [← mul_div_assoc, le_div_iff₀ hR]
  nlinarith

theorem sheet_z (R t x y h s : ℝ) (ht : 0 < t) (hh : t / 2 < h) (hs : 0 ≤ s) (hsR : s < R) (hxy : x ^ 2 + y ^ 2 ≤ s ^ 2) :
    2 * Real.pi * t * (1 - h / (R - s)) ≤ -∫ v in plateSet 0 R t, sqField (v - ![x, y, h]) 2 ∧
    -∫ v in plateSet 0 R t, sqField (v - ![x, y, h]) 2 ≤ 2 * Real.pi * t := by
  have hpi := Real.pi_pos
  rw [plateAt_int, ← integral_neg]
  have hR : 0 < R := lt_of_le_of_lt hs hsR
  have hint : ∀ r, 0 ≤ r → IntegrableOn (fun v => -sqField (v - ![0, 0, h]) 2) (plateSet 0 r t) := fun r hr => (plateSet_integrable le_rfl hr hh 2).neg
  have hpos : ∀ v : V3, |v 2| ≤ t / 2 → 0 ≤ -sqField (v - ![0, 0, h]) 2 := by
    intro v hv
    rw [sqField, ← neg_div]
    apply div_nonneg _ (pow_nonneg (modulus_nonneg _) 3)
    simp only [Pi.sub_apply, Matrix.cons_val]
    linarith [(abs_le.1 hv).2]
  have hval : ∀ r, 0 ≤ r → ∫ v in plateSet 0 r t, -sqField (v - ![0, 0, h]) 2 = plateField 0 r t h := by
    intro r hr
    rw [integral_neg, plateSet_z 0 r t h le_rfl hr ht.le hh, neg_neg, plateField]
  constructor
  · have hle : ∫ v in plateSet 0 (R - s) t, -sqField (v - ![0, 0, h]) 2 ≤ ∫ u in plateAt R t x y, -sqField (u - ![0, 0, h]) 2 := by
      apply setIntegral_mono_set ((hint (R + s) (by linarith)).mono_set (plateAt_sub_slab hs hR.le hxy))
      · exact (ae_restrict_iff' (plateAt_measurable _ _ _ _)).2 (Eventually.of_forall fun v hv => hpos v hv.1)
      · exact LE.le.eventuallyLE (plateSet_sub_plateAt hs hsR.le hxy)
    rw [hval _ (by linarith), plateField_zero hh ht.le] at hle
    refine le_trans ?_ hle
    have := (sqrt_gap (R := R - s) (by linarith) hh ht.le).2
    nlinarith
  · have hle : ∫ u in plateAt R t x y, -sqField (u - ![0, 0, h]) 2 ≤ ∫ v in plateSet 0 (R + s) t, -sqField (v - ![0, 0, h]) 2 := by
      apply setIntegral_mono_set (hint (R + s) (by linarith))
      · exact (ae_restrict_iff' (plateSet_closed _ _ _).measurableSet).2 (Eventually.of_forall fun v hv => hpos v hv.1)
      · exact LE.le.eventuallyLE (plateAt_sub_slab hs hR.le hxy)
    rw [hval _ (by linarith), plateField_zero hh ht.le] at hle
    refine hle.trans ?_
    have := (sqrt_gap (R := R + s) (by linarith) hh ht.le).1
    nlinarith

theorem sheet_xy (R t x y h s : ℝ) (ht : 0 < t) (hh : t / 2 < h) (hs : 0 ≤ s) (hsR : s < R) (hxy : x ^ 2 + y ^ 2 ≤ s ^ 2) (i : Fin 3) (hi : i ≠ 2) :
    |∫ v in plateSet 0 R t, sqField (v - ![x, y, h]) i| ≤ Real.pi * t * (s * (2 * R - s) / (R - s) ^ 2) := by
  have hpi := Real.pi_pos
  have hR : 0 < R := lt_of_le_of_lt hs hsR
  have hRs : 0 < R - s := by linarith
  have hsub := plateSet_sub_plateAt (t := t) hs hsR.le hxy
  have hm := (plateSet_closed 0 (R - s) t).measurableSet
  have hI : IntegrableOn (fun v => sqField (v - ![0, 0, h]) i) (plateAt R t x y) :=
    (plateSet_integrable le_rfl (by linarith : 0 ≤ R + s) hh i).mono_set (plateAt_sub_slab hs hR.le hxy)
  have hsplit := integral_diff hm hI hsub
  rw [plateSet_xy 0 (R - s) t h le_rfl hRs.le ht.le hh i hi, sub_zero] at hsplit
  rw [plateAt_int, ← hsplit]
  have hfin : volume (plateAt R t x y) ≠ ⊤ := by rw [plateAt_vol]; exact (plateSet_compact le_rfl hR.le).measure_lt_top.ne
  have hvol : volume.real (plateAt R t x y \ plateSet 0 (R - s) t) = Real.pi * t * (s * (2 * R - s)) := by
    rw [measureReal_sdiff hsub hm hfin, measureReal_def, measureReal_def, plateAt_vol, plateSet_vol le_rfl hR.le ht, plateSet_vol le_rfl hRs.le ht]
    ring
  have hb := norm_setIntegral_le_of_norm_le_const (μ := volume) (s := plateAt R t x y \ plateSet 0 (R - s) t)
    (f := fun v => sqField (v - ![0, 0, h]) i) (C := 1 / (R - s) ^ 2) (lt_of_le_of_lt (measure_mono Set.sdiff_subset) (lt_top_iff_ne_top.2 hfin)) (by
      rintro v ⟨hv, hv'⟩
      rw [Real.norm_eq_abs]
      apply sqField_le _ _ hRs
      rw [modulus]
      apply Real.le_sqrt_of_sq_le
      simp only [Pi.sub_apply, Matrix.cons_val, sub_zero]
      by_contra hc
      push Not at hc
      exact hv' ⟨hv.1, by rw [zero_pow two_ne_zero]; positivity, by nlinarith [sq_nonneg (v 2 - h)]⟩)
  rw [Real.norm_eq_abs, hvol] at hb
  refine hb.trans (le_of_eq ?_)
  ring

/-- C109: at any point above a large uniform round sheet (not only on the axis) the arrays of `annulus` with no hole attract, in the
limit of fine grids, straight down with `2 pi G` times the mass per area, up to an explicit relative error: at most `h/(R-s)` for the
vertical component, `s(2R-s)/(2(R-s)^2)` for the horizontal ones, `s` bounding the distance from the axis. -/
theorem C109_sheet (m rho R t x y h s : ℝ) (hm : 0 ≤ m) (hrho : 0 < rho) (ht : 0 < t) (hh : t / 2 < h) (hs : 0 ≤ s) (hsR : s < R)
    (hxy : x ^ 2 + y ^ 2 ≤ s ^ 2) :
    ∃ (f : ℕ × ℕ → V3) (F : V3), (∀ᶠ n in atTop, ∃ B T, Shp.annulus (rho * (Real.pi * R ^ 2 * t)) 0 R t n.1 n.2 = .ok B ∧
        point_matrix_gravity [⟨m, ![x, y, h]⟩] B = some (f n, T)) ∧ Tendsto f atTop (𝓝 F) ∧
      2 * Real.pi * BIG_G * m * (rho * t) * (1 - h / (R - s)) ≤ -F 2 ∧ -F 2 ≤ 2 * Real.pi * BIG_G * m * (rho * t) ∧
      |F 0| ≤ 2 * Real.pi * BIG_G * m * (rho * t) * (s * (2 * R - s) / (2 * (R - s) ^ 2)) ∧
      |F 1| ≤ 2 * Real.pi * BIG_G * m * (rho * t) * (s * (2 * R - s) / (2 * (R - s) ^ 2)) := by
  have hG := BIG_G_pos
  have hpi := Real.pi_pos
  have hR : 0 < R := lt_of_le_of_lt hs hsR
  obtain ⟨f, e, hf⟩ := plate_limit m (rho * (Real.pi * R ^ 2 * t)) 0 R t ![x, y, h] (by positivity) le_rfl hR ht (by simpa using hh)
  have hden : rho * (Real.pi * R ^ 2 * t) / (Real.pi * (R ^ 2 - 0 ^ 2) * t) = rho := by
    field_simp
    ring
  rw [hden] at hf
  have hc : 0 ≤ BIG_G * m * rho := by positivity
  refine ⟨f, fun i => BIG_G * m * rho * ∫ v in plateSet 0 R t, sqField (v - ![x, y, h]) i, e, tendsto_pi_nhds.2 hf, ?_, ?_, ?_, ?_⟩
  · have := mul_le_mul_of_nonneg_left (sheet_z R t x y h s ht hh hs hsR hxy).1 hc
    simp only; linarith
  · have := mul_le_mul_of_nonneg_left (sheet_z R t x y h s ht hh hs hsR hxy).2 hc
    simp only; linarith
  · simp only
    rw [abs_mul, abs_of_nonneg hc]
    refine (mul_le_mul_of_nonneg_left (sheet_xy R t x y h s ht hh hs hsR hxy 0 (by decide)) hc).trans (le_of_eq ?_)
    have : R - s ≠ 0 := by linarith
    field_simp
  · simp only
    rw [abs_mul, abs_of_nonneg hc]
    refine (mul_le_mul_of_nonneg_left (sheet_xy R t x y h s ht hh hs hsR hxy 1 (by decide)) hc).trans (le_of_eq ?_)
    have : R - s ≠ 0 := by linarith
    field_simp

/-- C109: the infinite sheet: at every point above it the force tends, as the radius grows at a fixed density, to `2 pi G` times the
mass per area, independent of the position. -/
theorem C109_infinite_sheet (m rho t x y h : ℝ) (hm : 0 ≤ m) (hrho : 0 < rho) (ht : 0 < t) (hh : t / 2 < h) :
    ∃ (f : ℝ → ℕ × ℕ → V3) (F : ℝ → V3), (∀ᶠ R in atTop, (∀ᶠ n in atTop, ∃ B T,
        Shp.annulus (rho * (Real.pi * R ^ 2 * t)) 0 R t n.1 n.2 = .ok B ∧ point_matrix_gravity [⟨m, ![x, y, h]⟩] B = some (f R n, T)) ∧
        Tendsto (f R) atTop (𝓝 (F R))) ∧
      Tendsto F atTop (𝓝 ![0, 0, -(2 * Real.pi * BIG_G * m * (rho * t))]) := by
  set s := Real.sqrt (x ^ 2 + y ^ 2) with hs
  have hs0 : 0 ≤ s := Real.sqrt_nonneg _
  have hxy : x ^ 2 + y ^ 2 ≤ s ^ 2 := by rw [hs, Real.sq_sqrt (by positivity)]
  have key : ∀ R : ℝ, ∃ (f : ℕ × ℕ → V3) (F : V3), s < R → ((∀ᶠ n in atTop, ∃ B T, Shp.annulus (rho * (Real.pi * R ^ 2 * t)) 0 R t n.1 n.2 = .ok B ∧
        point_matrix_gravity [⟨m, ![x, y, h]⟩] B = some (f n, T)) ∧ Tendsto f atTop (𝓝 F) ∧
      2 * Real.pi * BIG_G * m * (rho * t) * (1 - h / (R - s)) ≤ -F 2 ∧ -F 2 ≤ 2 * Real.pi * BIG_G * m * (rho * t) ∧
      |F 0| ≤ 2 * Real.pi * BIG_G * m * (rho * t) * (s * (2 * R - s) / (2 * (R - s) ^ 2)) ∧
      |F 1| ≤ 2 * Real.pi * BIG_G * m * (rho * t) * (s * (2 * R - s) / (2 * (R - s) ^ 2))) := by
    intro R
    by_cases h : s < R
    · obtain ⟨f, F, hF⟩ := C109_sheet m rho R t x y _ s hm hrho ht hh hs0 h hxy
      exact ⟨f, F, fun _ => hF⟩
    · exact ⟨fun _ => 0, 0, fun h' => absurd h' h⟩
  choose f F hF using key
  have h1 : Tendsto (fun R : ℝ => R - s) atTop atTop := tendsto_atTop_add_const_right _ _ tendsto_id
  have h2 : Tendsto (fun R : ℝ => (R - s)⁻¹) atTop (𝓝 0) := tendsto_inv_atTop_zero.comp h1
  set c := 2 * Real.pi * BIG_G * m * (rho * t)
  have hz : Tendsto (fun R : ℝ => c * (1 - h / (R - s))) atTop (𝓝 c) := by
    have := ((h2.const_mul h).const_sub 1).const_mul c
    simpa [div_eq_mul_inv] using this
  have hxyl : Tendsto (fun R : ℝ => c * (s * (2 * R - s) / (2 * (R - s) ^ 2))) atTop (𝓝 0) := by
    have h3 : Tendsto (fun R : ℝ => c * (s * ((R - s)⁻¹ + s / 2 * ((R - s)⁻¹ * (R - s)⁻¹)))) atTop (𝓝 (c * (s * (0 + s / 2 * (0 * 0))))) :=
      ((h2.add ((h2.mul h2).const_mul (s / 2))).const_mul s).const_mul c
    rw [show c * (s * (0 + s / 2 * (0 * 0))) = 0 by ring] at h3
    refine h3.congr' ?_
    filter_upwards [eventually_gt_atTop s] with R hR
    have : R - s ≠ 0 := by linarith
    field_simp
    ring
  refine ⟨f, F, ?_, tendsto_pi_nhds.2 fun i => ?_⟩
  · filter_upwards [eventually_gt_atTop s] with R hR
    exact ⟨(hF R hR).1, (hF R hR).2.1⟩
  · fin_cases i
    · exact squeeze_zero_norm' (by
        filter_upwards [eventually_gt_atTop s] with R hR
        exact (hF R hR).2.2.2.2.1) hxyl
    · exact squeeze_zero_norm' (by
        filter_upwards [eventually_gt_atTop s] with R hR
        exact (hF R hR).2.2.2.2.2) hxyl
    · have : Tendsto (fun R => -F R 2) atTop (𝓝 c) := by
        refine tendsto_of_tendsto_of_tendsto_of_le_of_le' hz tendsto_const_nhds ?_ ?_
        · filter_upwards [eventually_gt_atTop s] with R hR
          exact (hF R hR).2.2.1
        · filter_upwards [eventually_gt_atTop s] with R hR
          exact (hF R hR).2.2.2.1
      have h' := this.neg
      simp only [neg_neg] at h'
      exact h'

/-- The sheet of the test-suite: radius 140, thickness 0.01, a unit mass at the height 1.5 and at most 2 from the axis: the vertical
force is within 2% of that of the infinite sheet. -/
example : ∃ (f : ℕ × ℕ → V3) (F : V3), (∀ᶠ n in atTop, ∃ B T, Shp.annulus (1 * (Real.pi * 140 ^ 2 * 0.01)) 0 140 0.01 n.1 n.2 = .ok B ∧
    point_matrix_gravity [⟨1, ![1, 1, 1.5]⟩] B = some (f n, T)) ∧ Tendsto f atTop (𝓝 F) ∧
    2 * Real.pi * BIG_G * 0.01 * 0.98 ≤ -F 2 ∧ -F 2 ≤ 2 * Real.pi * BIG_G * 0.01 := by
  obtain ⟨f, F, h1, h2, h3, h4, -⟩ := C109_sheet 1 1 140 0.01 1 1 1.5 2 (by norm_num) (by norm_num) (by norm_num) (by norm_num) (by norm_num)
    (by norm_num) (by norm_num)
  have hG := BIG_G_pos
  have hpi := Real.pi_pos
  have hc : 0 < Real.pi * BIG_G := by positivity
  refine ⟨f, F, h1, h2, le_trans ?_ h3, h4.trans (le_of_eq (by ring))⟩
  norm_num
  nlinarith

end Newt
