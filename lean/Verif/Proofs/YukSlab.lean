import Verif.Proofs.SlabInt
import Verif.Proofs.YukShell

/-! # The Yukawa field of a round plate at a point of its axis -/

namespace Newt

open MeasureTheory Spec

/-- The Yukawa field. -/
noncomputable def yField (l : ℝ) (v : V3) (i : Fin 3) : ℝ := yukW l (modulus v) * v i

theorem yField_measurable (l : ℝ) (i : Fin 3) : Measurable fun v : V3 => yField l v i := by
  unfold yField yukW modulus
  fun_prop

theorem yuk_profile_anti {l d s : ℝ} (hl : 0 < l) (hd : 0 ≤ d) (h : d ≤ s) :
    Real.exp (-s / l) * (1 + s / l) ≤ Real.exp (-d / l) * (1 + d / l) := by
  have e : Real.exp (-d / l) = Real.exp (-s / l) * Real.exp ((s - d) / l) := by rw [← Real.exp_add]; congr 1; ring
  rw [e, mul_assoc]
  refine mul_le_mul_of_nonneg_left ?_ (Real.exp_pos _).le
  have h1 := Real.add_one_le_exp ((s - d) / l)
  have h2 : 0 ≤ d / l := by positivity
  have h3 : 0 ≤ (s - d) / l := div_nonneg (by linarith) hl.le
  have h4 : s / l = d / l + (s - d) / l := by ring
  rw [h4]
  nlinarith

theorem yField_le (l : ℝ) (hl : 0 < l) (v : V3) (i : Fin 3) {a : ℝ} (ha : 0 < a) (h : a ≤ modulus v) :
    |yField l v i| ≤ Real.exp (-a / l) * (1 + a / l) / a ^ 2 := by
  have hm : 0 < modulus v := lt_of_lt_of_le ha h
  have h0 : 0 ≤ Real.exp (-modulus v / l) * (1 + modulus v / l) := by positivity
  have hk := yuk_profile_anti hl ha.le h
  have hw : 0 ≤ yukW l (modulus v) := by rw [yukW]; positivity
  rw [yField, abs_mul, abs_of_nonneg hw]
  calc yukW l (modulus v) * |v i| ≤ yukW l (modulus v) * modulus v := by gcongr; exact abs_coord_le v i
    _ = Real.exp (-modulus v / l) * (1 + modulus v / l) / modulus v ^ 2 := by rw [yukW]; field_simp
    _ ≤ Real.exp (-a / l) * (1 + a / l) / a ^ 2 := by gcongr

theorem yplate_tpl (l : ℝ) (hl : 0 < l) (r1 r2 t h : ℝ) (h1 : 0 ≤ r1) (h2 : r1 ≤ r2) (ht : 0 ≤ t) (hh : t / 2 < h) (i : Fin 3) :
    ∫ v in plateSet r1 r2 t, yField l (v - ![0, 0, h]) i
      = tplquad (fun z r p => r * yField l ![r * Real.cos p, r * Real.sin p, z - h] i) (-Real.pi) Real.pi (fun _ => r1) (fun _ => r2)
        (fun _ _ => -(t / 2)) (fun _ _ => t / 2) := by
  have hr2 : 0 ≤ r2 := h1.trans h2
  have hpi := Real.pi_pos
  have hg : 0 < h - t / 2 := by linarith
  have key := integral_cylindrical (plateSet r1 r2 t) (plateSet_closed _ _ _).measurableSet (fun v => yField l (v - ![0, 0, h]) i)
    ((yField_measurable l i).comp (measurable_id.sub_const _)) r2 (t / 2) (Real.exp (-(h - t / 2) / l) * (1 + (h - t / 2) / l) / (h - t / 2) ^ 2)
    (by positivity)
    (fun v hv => yField_le l hl _ i hg (gap_le hv.1)) (fun v hv => ⟨hv.2.2, hv.1⟩) hr2 (by linarith) Real.pi hpi.le le_rfl
    (fun _ => r1) (fun _ => r2) (fun _ _ => -(t / 2)) (fun _ _ => t / 2) (fun _ _ _ => h1) (fun _ _ _ => h2) (fun _ _ _ _ _ _ => by linarith)
    (by
      intro p r z hr hp1 hp2
      have e : (r * Real.cos p) ^ 2 + (r * Real.sin p) ^ 2 = r ^ 2 := by linear_combination r ^ 2 * Real.sin_sq_add_cos_sq p
      simp only [plateSet, Set.mem_setOf_eq, Matrix.cons_val, e, abs_le]
      rw [sq_le_sq₀ h1 hr.le, sq_le_sq₀ hr.le hr2]
      constructor
      · rintro ⟨ha, hb, hc⟩; exact ⟨⟨hp1.le, hp2.le⟩, ⟨hb, hc⟩, ha⟩
      · rintro ⟨-, ⟨hb, hc⟩, ha⟩; exact ⟨ha, hb, hc⟩)
  rw [key]
  unfold tplquad
  congr! 6 with p r z
  have e : (![r * Real.cos p, r * Real.sin p, z] : V3) - ![0, 0, h] = ![r * Real.cos p, r * Real.sin p, z - h] := by
    funext j
    fin_cases j <;> simp
  change r * yField l (![r * Real.cos p, r * Real.sin p, z] - ![0, 0, h]) i = r * yField l ![r * Real.cos p, r * Real.sin p, z - h] i
  rw [e]

theorem deriv_yuk_pot (l s : ℝ) (hs : s ≠ 0) : HasDerivAt (fun s : ℝ => -(Real.exp (-s / l) / s)) (s * yukW l s) s := by
  have d1 : HasDerivAt (fun s : ℝ => Real.exp (-s / l)) (Real.exp (-s / l) * (-1 / l)) s := by
    have := ((hasDerivAt_id s).neg.div_const l).exp
    simpa using this
  have d2 := (d1.div (hasDerivAt_id s) hs).neg
  refine d2.congr_deriv ?_
  change -((Real.exp (-s / l) * (-1 / l) * s - Real.exp (-s / l) * 1) / s ^ 2) = _
  rw [yukW]
  generalize Real.exp (-s / l) = E
  by_cases hl : l = 0
  · subst hl; simp; field_simp
  field_simp
  ring

theorem deriv_yuk_z (l r w : ℝ) (hw : w ≠ 0) :
    HasDerivAt (fun z : ℝ => -(Real.exp (-Real.sqrt (r ^ 2 + z ^ 2) / l) / Real.sqrt (r ^ 2 + z ^ 2)))
      (yukW l (Real.sqrt (r ^ 2 + w ^ 2)) * w) w := by
  have hpos : 0 < r ^ 2 + w ^ 2 := by positivity
  have hs := (Real.sqrt_pos.2 hpos).ne'
  have d1 : HasDerivAt (fun z : ℝ => r ^ 2 + z ^ 2) (2 * w) w := by
    simpa using (hasDerivAt_pow 2 w).const_add (r ^ 2)
  refine ((deriv_yuk_pot l _ hs).comp w (d1.sqrt hpos.ne')).congr_deriv ?_
  generalize yukW l (Real.sqrt (r ^ 2 + w ^ 2)) = W
  field_simp

theorem deriv_yuk_r (l w r : ℝ) (hl : l ≠ 0) (hw : w ≠ 0) :
    HasDerivAt (fun x : ℝ => -l * Real.exp (-Real.sqrt (x ^ 2 + w ^ 2) / l)) (r * (Real.exp (-Real.sqrt (r ^ 2 + w ^ 2) / l) / Real.sqrt (r ^ 2 + w ^ 2))) r := by
  have hpos : 0 < r ^ 2 + w ^ 2 := by positivity
  have hs := (Real.sqrt_pos.2 hpos).ne'
  refine ((((deriv_sqrt w r hw).neg.div_const l).exp).const_mul (-l)).congr_deriv ?_
  generalize Real.exp (-Real.sqrt (r ^ 2 + w ^ 2) / l) = E
  field_simp

theorem yuk_r_cont (l w : ℝ) (hw : w ≠ 0) :
    Continuous fun r : ℝ => r * (Real.exp (-Real.sqrt (r ^ 2 + w ^ 2) / l) / Real.sqrt (r ^ 2 + w ^ 2)) := by
  apply continuous_id.mul
  apply Continuous.div (by fun_prop) (by fun_prop)
  intro r
  have : 0 < r ^ 2 + w ^ 2 := by positivity
  exact (Real.sqrt_pos.2 this).ne'

theorem yplate_r_int (l w r1 r2 : ℝ) (hl : l ≠ 0) (hw : w ≠ 0) :
    ∫ r in r1..r2, r * (Real.exp (-Real.sqrt (r ^ 2 + w ^ 2) / l) / Real.sqrt (r ^ 2 + w ^ 2))
      = l * (Real.exp (-Real.sqrt (r1 ^ 2 + w ^ 2) / l) - Real.exp (-Real.sqrt (r2 ^ 2 + w ^ 2) / l)) := by
  rw [intervalIntegral.integral_eq_sub_of_hasDerivAt (fun r _ => deriv_yuk_r l w r hl hw) ((yuk_r_cont l w hw).intervalIntegrable _ _)]
  ring

theorem yplate_z_int (l r t h : ℝ) (ht : 0 ≤ t) (hh : t / 2 < h) :
    ∫ z in (-(t / 2))..(t / 2), yukW l (Real.sqrt (r ^ 2 + (z - h) ^ 2)) * (z - h)
      = Real.exp (-Real.sqrt (r ^ 2 + (h + t / 2) ^ 2) / l) / Real.sqrt (r ^ 2 + (h + t / 2) ^ 2)
        - Real.exp (-Real.sqrt (r ^ 2 + (h - t / 2) ^ 2) / l) / Real.sqrt (r ^ 2 + (h - t / 2) ^ 2) := by
  have hne : ∀ z ∈ Set.uIcc (-(t / 2)) (t / 2), z - h ≠ 0 := by
    intro z hz
    rw [Set.uIcc_of_le (by linarith)] at hz
    have := hz.2
    exact ne_of_lt (by linarith)
  have hd : ∀ z ∈ Set.uIcc (-(t / 2)) (t / 2), HasDerivAt (fun z : ℝ => -(Real.exp (-Real.sqrt (r ^ 2 + (z - h) ^ 2) / l) / Real.sqrt (r ^ 2 + (z - h) ^ 2)))
      (yukW l (Real.sqrt (r ^ 2 + (z - h) ^ 2)) * (z - h)) z := by
    intro z hz
    have := (deriv_yuk_z l r (z - h) (hne z hz)).comp z ((hasDerivAt_id z).sub_const h)
    rw [mul_one] at this
    exact this
  rw [intervalIntegral.integral_eq_sub_of_hasDerivAt hd]
  · rw [show (-(t / 2) - h) ^ 2 = (h + t / 2) ^ 2 by ring, show (t / 2 - h) ^ 2 = (h - t / 2) ^ 2 by ring]; ring
  · apply ContinuousOn.intervalIntegrable
    apply ContinuousOn.mul _ (by fun_prop)
    unfold yukW
    apply ContinuousOn.div (f := fun z : ℝ => Real.exp (-Real.sqrt (r ^ 2 + (z - h) ^ 2) / l) * (1 + Real.sqrt (r ^ 2 + (z - h) ^ 2) / l))
      (g := fun z : ℝ => Real.sqrt (r ^ 2 + (z - h) ^ 2) ^ 3) (by fun_prop) (by fun_prop)
    intro z hz
    have h1 := hne z hz
    have : 0 < r ^ 2 + (z - h) ^ 2 := by positivity
    exact pow_ne_zero _ (Real.sqrt_pos.2 this).ne'

/-- The Yukawa field of the plate along its axis. -/
theorem yplate_z (l : ℝ) (hl : 0 < l) (r1 r2 t h : ℝ) (h1 : 0 ≤ r1) (h2 : r1 ≤ r2) (ht : 0 ≤ t) (hh : t / 2 < h) :
    ∫ v in plateSet r1 r2 t, yField l (v - ![0, 0, h]) 2
      = -(2 * Real.pi * l * ((Real.exp (-Real.sqrt (r1 ^ 2 + (h - t / 2) ^ 2) / l) - Real.exp (-Real.sqrt (r2 ^ 2 + (h - t / 2) ^ 2) / l))
        - (Real.exp (-Real.sqrt (r1 ^ 2 + (h + t / 2) ^ 2) / l) - Real.exp (-Real.sqrt (r2 ^ 2 + (h + t / 2) ^ 2) / l)))) := by
  have ha : h - t / 2 ≠ 0 := by intro e; linarith
  have hb : h + t / 2 ≠ 0 := by intro e; linarith
  rw [yplate_tpl l hl r1 r2 t h h1 h2 ht hh, tplquad]
  have e1 : ∀ p r : ℝ, ∫ z in (-(t / 2))..(t / 2), r * yField l ![r * Real.cos p, r * Real.sin p, z - h] 2
      = r * (Real.exp (-Real.sqrt (r ^ 2 + (h + t / 2) ^ 2) / l) / Real.sqrt (r ^ 2 + (h + t / 2) ^ 2))
        - r * (Real.exp (-Real.sqrt (r ^ 2 + (h - t / 2) ^ 2) / l) / Real.sqrt (r ^ 2 + (h - t / 2) ^ 2)) := by
    intro p r
    simp only [yField, modulus_pol, Matrix.cons_val]
    rw [intervalIntegral.integral_const_mul, yplate_z_int l r t h ht hh]
    ring
  simp only [e1]
  rw [intervalIntegral.integral_const, intervalIntegral.integral_sub ((yuk_r_cont l _ hb).intervalIntegrable _ _)
    ((yuk_r_cont l _ ha).intervalIntegrable _ _), yplate_r_int l _ _ _ hl.ne' hb, yplate_r_int l _ _ _ hl.ne' ha, smul_eq_mul]
  ring

/-- ... has no component across it. -/
theorem yplate_xy (l : ℝ) (hl : 0 < l) (r1 r2 t h : ℝ) (h1 : 0 ≤ r1) (h2 : r1 ≤ r2) (ht : 0 ≤ t) (hh : t / 2 < h) (i : Fin 3) (hi : i ≠ 2) :
    ∫ v in plateSet r1 r2 t, yField l (v - ![0, 0, h]) i = 0 := by
  rw [yplate_tpl l hl r1 r2 t h h1 h2 ht hh, tplquad]
  have key : ∀ c : ℝ → ℝ, (∀ p r z, yField l ![r * Real.cos p, r * Real.sin p, z] i = c p * (yukW l (Real.sqrt (r ^ 2 + z ^ 2)) * r)) →
      ∫ p in (-Real.pi)..Real.pi, c p = 0 → (∫ p in (-Real.pi)..Real.pi, ∫ r in r1..r2, ∫ z in (-(t / 2))..(t / 2),
        r * yField l ![r * Real.cos p, r * Real.sin p, z - h] i) = 0 := by
    intro c hc h0
    have e : ∀ p, (∫ r in r1..r2, ∫ z in (-(t / 2))..(t / 2), r * yField l ![r * Real.cos p, r * Real.sin p, z - h] i)
        = c p * ∫ r in r1..r2, ∫ z in (-(t / 2))..(t / 2), r * (yukW l (Real.sqrt (r ^ 2 + (z - h) ^ 2)) * r) := by
      intro p
      rw [← intervalIntegral.integral_const_mul]
      congr 1
      funext r
      rw [← intervalIntegral.integral_const_mul]
      congr 1
      funext z
      rw [hc]; ring
    simp only [e]
    rw [intervalIntegral.integral_mul_const, h0, zero_mul]
  fin_cases i
  · refine key Real.cos (fun p r z => ?_) (by rw [integral_cos]; simp)
    simp only [yField, modulus_pol, Fin.zero_eta, Matrix.cons_val]; ring
  · refine key Real.sin (fun p r z => ?_) (by rw [integral_sin]; simp)
    simp only [yField, modulus_pol, Fin.mk_one, Matrix.cons_val]; ring
  · exact absurd rfl hi

end Newt
