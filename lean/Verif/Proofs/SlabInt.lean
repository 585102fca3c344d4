import Verif.Proofs.TripleInt
import Verif.Proofs.Glib
import Mathlib.MeasureTheory.Integral.IntervalIntegral.FundThmCalculus

/-! # The inverse square field of a round plate at a point of its axis -/

namespace Newt

open MeasureTheory Spec

/-- The ring-shaped plate `r1 <= r <= r2`, `|z| <= t/2`. -/
def plateSet (r1 r2 t : ℝ) : Set V3 := {v | |v 2| ≤ t / 2 ∧ r1 ^ 2 ≤ v 0 ^ 2 + v 1 ^ 2 ∧ v 0 ^ 2 + v 1 ^ 2 ≤ r2 ^ 2}

theorem plateSet_closed (r1 r2 t : ℝ) : IsClosed (plateSet r1 r2 t) := by
  have h1 : IsClosed {v : V3 | |v 2| ≤ t / 2} := isClosed_le (by fun_prop) continuous_const
  have h2 : IsClosed {v : V3 | r1 ^ 2 ≤ v 0 ^ 2 + v 1 ^ 2} := isClosed_le continuous_const (by fun_prop)
  have h3 : IsClosed {v : V3 | v 0 ^ 2 + v 1 ^ 2 ≤ r2 ^ 2} := isClosed_le (by fun_prop) continuous_const
  exact h1.inter (h2.inter h3)

/-- The inverse square field. -/
noncomputable def sqField (v : V3) (i : Fin 3) : ℝ := v i / modulus v ^ 3

theorem sqField_measurable (i : Fin 3) : Measurable fun v : V3 => sqField v i := by
  unfold sqField modulus
  fun_prop

theorem abs_coord_le (v : V3) (i : Fin 3) : |v i| ≤ modulus v := by
  rw [modulus]
  apply Real.abs_le_sqrt
  fin_cases i <;> simp only [Fin.zero_eta, Fin.mk_one, Fin.reduceFinMk] <;> nlinarith [sq_nonneg (v 0), sq_nonneg (v 1), sq_nonneg (v 2)]

theorem sqField_le (v : V3) (i : Fin 3) {a : ℝ} (ha : 0 < a) (h : a ≤ modulus v) : |sqField v i| ≤ 1 / a ^ 2 := by
  have hm : 0 < modulus v := lt_of_lt_of_le ha h
  rw [sqField, abs_div, abs_of_pos (pow_pos hm 3)]
  calc |v i| / modulus v ^ 3 ≤ modulus v / modulus v ^ 3 := by gcongr; exact abs_coord_le v i
    _ = 1 / modulus v ^ 2 := by field_simp
    _ ≤ 1 / a ^ 2 := by gcongr

theorem gap_le {t h : ℝ} {v : V3} (hv : |v 2| ≤ t / 2) : h - t / 2 ≤ modulus (v - ![0, 0, h]) := by
  have := abs_coord_le (v - ![0, 0, h]) 2
  simp only [Pi.sub_apply, Matrix.cons_val] at this
  have h2 := abs_le.1 this
  have h3 := abs_le.1 hv
  linarith [h2.1]

theorem modulus_pol (r t z : ℝ) : modulus ![r * Real.cos t, r * Real.sin t, z] = Real.sqrt (r ^ 2 + z ^ 2) := by
  rw [modulus]
  congr 1
  simp only [Matrix.cons_val]
  linear_combination r ^ 2 * Real.sin_sq_add_cos_sq t

theorem plateSet_tpl (r1 r2 t h : ℝ) (h1 : 0 ≤ r1) (h2 : r1 ≤ r2) (ht : 0 ≤ t) (hh : t / 2 < h) (i : Fin 3) :
    ∫ v in plateSet r1 r2 t, sqField (v - ![0, 0, h]) i
      = tplquad (fun z r p => r * sqField ![r * Real.cos p, r * Real.sin p, z - h] i) (-Real.pi) Real.pi (fun _ => r1) (fun _ => r2)
        (fun _ _ => -(t / 2)) (fun _ _ => t / 2) := by
  have hr2 : 0 ≤ r2 := h1.trans h2
  have hpi := Real.pi_pos
  have key := integral_cylindrical (plateSet r1 r2 t) (plateSet_closed _ _ _).measurableSet (fun v => sqField (v - ![0, 0, h]) i)
    ((sqField_measurable i).comp (measurable_id.sub_const _)) r2 (t / 2) (1 / (h - t / 2) ^ 2) (by positivity)
    (fun v hv => sqField_le _ i (by linarith) (gap_le hv.1)) (fun v hv => ⟨hv.2.2, hv.1⟩) hr2 (by linarith) Real.pi hpi.le le_rfl
    (fun _ => r1) (fun _ => r2) (fun _ _ => -(t / 2)) (fun _ _ => t / 2) (fun _ _ _ => h1) (fun _ _ _ => h2) (fun _ _ _ _ _ _ => by linarith)
    (by
      intro p r z hr hp1 hp2
      have e : (r * Real.cos p) ^ 2 + (r * Real.sin p) ^ 2 = r ^ 2 := by linear_combination r ^ 2 * Real.sin_sq_add_cos_sq p
      simp only [plateSet, Set.mem_setOf_eq, Matrix.cons_val, e, abs_le]
      rw [sq_le_sq₀ h1 hr.le, sq_le_sq₀ hr.le hr2]
      constructor
      · rintro ⟨ha, hb, hc⟩; exact ⟨⟨hp1.le, hp2.le⟩, ⟨hb, hc⟩, ha⟩
      · rintro ⟨-, ⟨hb, hc⟩, ha⟩; exact ⟨ha, hb, hc⟩)
  rw [key]
  unfold tplquad
  congr! 6 with p r z
  have e : (![r * Real.cos p, r * Real.sin p, z] : V3) - ![0, 0, h] = ![r * Real.cos p, r * Real.sin p, z - h] := by
    funext j
    fin_cases j <;> simp
  change r * sqField (![r * Real.cos p, r * Real.sin p, z] - ![0, 0, h]) i = r * sqField ![r * Real.cos p, r * Real.sin p, z - h] i
  rw [e]

theorem deriv_inv_sqrt (r w : ℝ) (hw : w ≠ 0) :
    HasDerivAt (fun z : ℝ => -(1 / Real.sqrt (r ^ 2 + z ^ 2))) (w / Real.sqrt (r ^ 2 + w ^ 2) ^ 3) w := by
  have hpos : 0 < r ^ 2 + w ^ 2 := by positivity
  have hs := Real.sqrt_pos.2 hpos
  have d1 : HasDerivAt (fun z : ℝ => r ^ 2 + z ^ 2) (2 * w) w := by
    simpa using (hasDerivAt_pow 2 w).const_add (r ^ 2)
  have d2 := (d1.sqrt hpos.ne').inv hs.ne'
  refine (d2.neg.congr_deriv ?_).congr_of_eventuallyEq (Filter.Eventually.of_forall fun z => ?_)
  · field_simp
  · simp

theorem deriv_sqrt (w r : ℝ) (hw : w ≠ 0) : HasDerivAt (fun x : ℝ => Real.sqrt (x ^ 2 + w ^ 2)) (r / Real.sqrt (r ^ 2 + w ^ 2)) r := by
  have hpos : 0 < r ^ 2 + w ^ 2 := by positivity
  have d1 : HasDerivAt (fun x : ℝ => x ^ 2 + w ^ 2) (2 * r) r := by
    simpa using (hasDerivAt_pow 2 r).add_const (w ^ 2)
  refine (d1.sqrt hpos.ne').congr_deriv ?_
  field_simp

theorem plate_r_int (w r1 r2 : ℝ) (hw : w ≠ 0) :
    ∫ r in r1..r2, r / Real.sqrt (r ^ 2 + w ^ 2) = Real.sqrt (r2 ^ 2 + w ^ 2) - Real.sqrt (r1 ^ 2 + w ^ 2) := by
  apply intervalIntegral.integral_eq_sub_of_hasDerivAt fun r _ => deriv_sqrt w r hw
  apply Continuous.intervalIntegrable
  apply Continuous.div (by fun_prop) (by fun_prop)
  intro r
  have : 0 < r ^ 2 + w ^ 2 := by positivity
  exact (Real.sqrt_pos.2 this).ne'

theorem plate_z_int (r t h : ℝ) (ht : 0 ≤ t) (hh : t / 2 < h) :
    ∫ z in (-(t / 2))..(t / 2), (z - h) / Real.sqrt (r ^ 2 + (z - h) ^ 2) ^ 3
      = 1 / Real.sqrt (r ^ 2 + (h + t / 2) ^ 2) - 1 / Real.sqrt (r ^ 2 + (h - t / 2) ^ 2) := by
  have hne : ∀ z ∈ Set.uIcc (-(t / 2)) (t / 2), z - h ≠ 0 := by
    intro z hz
    rw [Set.uIcc_of_le (by linarith)] at hz
    have := hz.2
    exact ne_of_lt (by linarith)
  have hd : ∀ z ∈ Set.uIcc (-(t / 2)) (t / 2), HasDerivAt (fun z : ℝ => -(1 / Real.sqrt (r ^ 2 + (z - h) ^ 2)))
      ((z - h) / Real.sqrt (r ^ 2 + (z - h) ^ 2) ^ 3) z := by
    intro z hz
    have := (deriv_inv_sqrt r (z - h) (hne z hz)).comp z ((hasDerivAt_id z).sub_const h)
    rw [mul_one] at this
    exact this
  rw [intervalIntegral.integral_eq_sub_of_hasDerivAt hd]
  · rw [show (-(t / 2) - h) ^ 2 = (h + t / 2) ^ 2 by ring, show (t / 2 - h) ^ 2 = (h - t / 2) ^ 2 by ring]; ring
  · apply ContinuousOn.intervalIntegrable
    apply ContinuousOn.div (f := fun z : ℝ => z - h) (g := fun z : ℝ => Real.sqrt (r ^ 2 + (z - h) ^ 2) ^ 3) (by fun_prop) (by fun_prop)
    intro z hz
    have h1 := hne z hz
    have : 0 < r ^ 2 + (z - h) ^ 2 := by positivity
    exact pow_ne_zero _ (Real.sqrt_pos.2 this).ne'

/-- The field of the plate along its axis. -/
theorem plateSet_z (r1 r2 t h : ℝ) (h1 : 0 ≤ r1) (h2 : r1 ≤ r2) (ht : 0 ≤ t) (hh : t / 2 < h) :
    ∫ v in plateSet r1 r2 t, sqField (v - ![0, 0, h]) 2
      = -(2 * Real.pi * ((Real.sqrt (r2 ^ 2 + (h - t / 2) ^ 2) - Real.sqrt (r1 ^ 2 + (h - t / 2) ^ 2))
        - (Real.sqrt (r2 ^ 2 + (h + t / 2) ^ 2) - Real.sqrt (r1 ^ 2 + (h + t / 2) ^ 2)))) := by
  have ha : h - t / 2 ≠ 0 := by intro e; linarith
  have hb : h + t / 2 ≠ 0 := by intro e; linarith
  rw [plateSet_tpl r1 r2 t h h1 h2 ht hh, tplquad]
  have e1 : ∀ p r : ℝ, ∫ z in (-(t / 2))..(t / 2), r * sqField ![r * Real.cos p, r * Real.sin p, z - h] 2
      = r / Real.sqrt (r ^ 2 + (h + t / 2) ^ 2) - r / Real.sqrt (r ^ 2 + (h - t / 2) ^ 2) := by
    intro p r
    simp only [sqField, modulus_pol, Matrix.cons_val]
    rw [intervalIntegral.integral_const_mul, plate_z_int r t h ht hh]
    ring
  have hi : ∀ w : ℝ, w ≠ 0 → IntervalIntegrable (fun r : ℝ => r / Real.sqrt (r ^ 2 + w ^ 2)) volume r1 r2 := by
    intro w hw
    apply Continuous.intervalIntegrable
    apply Continuous.div (by fun_prop) (by fun_prop)
    intro r
    have : 0 < r ^ 2 + w ^ 2 := by positivity
    exact (Real.sqrt_pos.2 this).ne'
  simp only [e1]
  rw [intervalIntegral.integral_const, intervalIntegral.integral_sub (hi _ hb) (hi _ ha), plate_r_int _ _ _ hb, plate_r_int _ _ _ ha, smul_eq_mul]
  ring

/-- ... has no component across it. -/
theorem plateSet_xy (r1 r2 t h : ℝ) (h1 : 0 ≤ r1) (h2 : r1 ≤ r2) (ht : 0 ≤ t) (hh : t / 2 < h) (i : Fin 3) (hi : i ≠ 2) :
    ∫ v in plateSet r1 r2 t, sqField (v - ![0, 0, h]) i = 0 := by
  rw [plateSet_tpl r1 r2 t h h1 h2 ht hh, tplquad]
  have key : ∀ c : ℝ → ℝ, (∀ p r z, sqField ![r * Real.cos p, r * Real.sin p, z] i = c p * (r / Real.sqrt (r ^ 2 + z ^ 2) ^ 3)) →
      ∫ p in (-Real.pi)..Real.pi, c p = 0 → (∫ p in (-Real.pi)..Real.pi, ∫ r in r1..r2, ∫ z in (-(t / 2))..(t / 2),
        r * sqField ![r * Real.cos p, r * Real.sin p, z - h] i) = 0 := by
    intro c hc h0
    have e : ∀ p, (∫ r in r1..r2, ∫ z in (-(t / 2))..(t / 2), r * sqField ![r * Real.cos p, r * Real.sin p, z - h] i)
        = c p * ∫ r in r1..r2, ∫ z in (-(t / 2))..(t / 2), r * (r / Real.sqrt (r ^ 2 + (z - h) ^ 2) ^ 3) := by
      intro p
      rw [← intervalIntegral.integral_const_mul]
      congr 1
      funext r
      rw [← intervalIntegral.integral_const_mul]
      congr 1
      funext z
      rw [hc]; ring
    simp only [e]
    rw [intervalIntegral.integral_mul_const, h0, zero_mul]
  fin_cases i
  · refine key Real.cos (fun p r z => ?_) (by rw [integral_cos]; simp)
    simp only [sqField, modulus_pol, Fin.zero_eta, Matrix.cons_val]; ring
  · refine key Real.sin (fun p r z => ?_) (by rw [integral_sin]; simp)
    simp only [sqField, modulus_pol, Fin.mk_one, Matrix.cons_val]; ring
  · exact absurd rfl hi

end Newt
