import Verif.Proofs.SolidInt
import Mathlib.Analysis.Complex.Isometry
import Mathlib.MeasureTheory.Measure.Haar.InnerProductSpace
import Mathlib.MeasureTheory.Measure.Lebesgue.Complex

/-! # Planar moments of rotated regions, triangles and rectangles -/

namespace Newt

open MeasureTheory Finset Spec
open scoped Pointwise

/-! ## Rotation -/

/-- Rotation of the plane by `phi`. -/
noncomputable def rot2 (phi : ℝ) : ℝ × ℝ ≃ᵐ ℝ × ℝ :=
  (Complex.measurableEquivRealProd.symm.trans
    (rotation (Circle.exp phi)).toHomeomorph.toMeasurableEquiv).trans Complex.measurableEquivRealProd

theorem rot2_apply (phi : ℝ) (p : ℝ × ℝ) :
    rot2 phi p = (p.1 * Real.cos phi - p.2 * Real.sin phi, p.1 * Real.sin phi + p.2 * Real.cos phi) := by
  simp only [rot2, MeasurableEquiv.trans_apply]
  change Complex.measurableEquivRealProd ((rotation (Circle.exp phi)) ⟨p.1, p.2⟩) = _
  rw [rotation_apply, Complex.measurableEquivRealProd_apply, Circle.coe_exp, Complex.exp_mul_I,
    ← Complex.ofReal_cos, ← Complex.ofReal_sin]
  ext <;> simp [-Complex.ofReal_cos, -Complex.ofReal_sin] <;> ring

theorem rot2_mp (phi : ℝ) : MeasurePreserving (rot2 phi) :=
  (Complex.volume_preserving_equiv_real_prod.comp
    (LinearIsometryEquiv.measurePreserving (rotation (Circle.exp phi)))).comp
      (Complex.volume_preserving_equiv_real_prod.symm Complex.measurableEquivRealProd)

theorem rotated_eq (phi : ℝ) (B : Set (ℝ × ℝ)) : rotated phi B = rot2 phi '' B := by
  ext ⟨x, y⟩
  simp only [rotated, Set.mem_setOf_eq, Set.mem_image, rot2_apply, Prod.mk.injEq]
  constructor
  · rintro ⟨b, hb, h1, h2⟩; exact ⟨b, hb, h1.symm, h2.symm⟩
  · rintro ⟨b, hb, h1, h2⟩; exact ⟨b, hb, h1.symm, h2.symm⟩

theorem rot2_continuous (phi : ℝ) : Continuous (rot2 phi) := by
  have : (rot2 phi : ℝ × ℝ → ℝ × ℝ) = fun p =>
      (p.1 * Real.cos phi - p.2 * Real.sin phi, p.1 * Real.sin phi + p.2 * Real.cos phi) :=
    funext (rot2_apply phi)
  rw [this]; fun_prop

theorem rotated_compact (phi : ℝ) (B : Set (ℝ × ℝ)) (hB : IsCompact B) : IsCompact (rotated phi B) := by
  rw [rotated_eq]; exact hB.image (rot2_continuous phi)

theorem pmf_rot2 (phi : ℝ) (m k : ℕ) (p : ℝ × ℝ) :
    pmf m k (rot2 phi p) = Complex.exp (-Complex.I * m * phi) * pmf m k p := by
  have h1 : Complex.exp (-Complex.I * m * phi) = (Complex.exp (-(phi : ℂ) * Complex.I)) ^ m := by
    rw [← Complex.exp_nat_mul]; congr 1; ring
  have h2 : Complex.exp (-(phi : ℂ) * Complex.I) = Complex.cos phi - Complex.sin phi * Complex.I := by
    rw [Complex.exp_mul_I, Complex.cos_neg, Complex.sin_neg]; ring
  rw [h1, h2, rot2_apply]
  simp only [pmf]
  push_cast
  have e1 : ((p.1 : ℂ) * Complex.cos phi - p.2 * Complex.sin phi)
      - Complex.I * (p.1 * Complex.sin phi + p.2 * Complex.cos phi)
      = (Complex.cos phi - Complex.sin phi * Complex.I) * (p.1 - Complex.I * p.2) := by
    ring_nf; simp; ring
  have e2 : ((p.1 : ℂ) * Complex.cos phi - p.2 * Complex.sin phi) ^ 2
      + (p.1 * Complex.sin phi + p.2 * Complex.cos phi) ^ 2 = (p.1 : ℂ) ^ 2 + (p.2 : ℂ) ^ 2 := by
    have := Complex.sin_sq_add_cos_sq (phi : ℂ)
    linear_combination ((p.1 : ℂ) ^ 2 + (p.2 : ℂ) ^ 2) * this
  rw [e1, e2, mul_pow]; ring

theorem pm_rotated (phi : ℝ) (B : Set (ℝ × ℝ)) (m k : ℕ) :
    pm (rotated phi B) m k = Complex.exp (-Complex.I * m * phi) * pm B m k := by
  rw [pm, rotated_eq, (rot2_mp phi).setIntegral_image_emb (rot2 phi).measurableEmbedding]
  simp_rw [pmf_rot2]
  rw [integral_const_mul, pm]

theorem vol_rotated (phi : ℝ) (B : Set (ℝ × ℝ)) : volume (rotated phi B) = volume B := by
  rw [rotated_eq, ← (rot2_mp phi).measure_preimage_emb (rot2 phi).measurableEmbedding,
    Set.preimage_image_eq _ (rot2 phi).injective]

/-! ## Triangles with one vertex at the origin and the opposite side on `x = d` -/

theorem triangle_compact (A B : ℝ × ℝ) : IsCompact (triangle A B) := by
  have hK : IsCompact {q : ℝ × ℝ | 0 ≤ q.1 ∧ 0 ≤ q.2 ∧ q.1 + q.2 ≤ 1} := by
    refine IsCompact.of_isClosed_subset ((isCompact_Icc (a := (0 : ℝ)) (b := 1)).prod
      (isCompact_Icc (a := (0 : ℝ)) (b := 1))) ?_ ?_
    · refine IsClosed.inter (isClosed_le continuous_const continuous_fst) ?_
      exact IsClosed.inter (isClosed_le continuous_const continuous_snd)
        (isClosed_le (continuous_fst.add continuous_snd) continuous_const)
    · rintro ⟨a, b⟩ ⟨h1, h2, h3⟩
      simp only at h1 h2 h3
      exact ⟨⟨h1, by show a ≤ 1; linarith⟩, ⟨h2, by show b ≤ 1; linarith⟩⟩
  have := hK.image (f := fun q : ℝ × ℝ => ((q.1 * A.1 + q.2 * B.1, q.1 * A.2 + q.2 * B.2) : ℝ × ℝ))
    (by fun_prop)
  convert this using 1
  ext ⟨x, y⟩
  simp only [triangle, Set.mem_setOf_eq, Set.mem_image, Prod.exists, Prod.mk.injEq]
  constructor
  · rintro ⟨s, t, h1, h2, h3, h4, h5⟩; exact ⟨s, t, ⟨h1, h2, h3⟩, h4.symm, h5.symm⟩
  · rintro ⟨s, t, ⟨h1, h2, h3⟩, h4, h5⟩; exact ⟨s, t, h1, h2, h3, h4.symm, h5.symm⟩

theorem triangle_swap (A B : ℝ × ℝ) : triangle A B = triangle B A := by
  ext p
  constructor <;>
  · rintro ⟨s, t, h1, h2, h3, h4, h5⟩
    exact ⟨t, s, h2, h1, by linarith, by rw [h4]; ring, by rw [h5]; ring⟩

theorem rotated_pi (A B : ℝ × ℝ) : rotated Real.pi (triangle A B) = triangle (-A) (-B) := by
  ext p
  simp only [rotated, Set.mem_setOf_eq, Real.cos_pi, Real.sin_pi]
  constructor
  · rintro ⟨b, ⟨s, t, h1, h2, h3, h4, h5⟩, h6, h7⟩
    exact ⟨s, t, h1, h2, h3, by rw [h6, h4]; simp; ring, by rw [h7, h5]; simp; ring⟩
  · rintro ⟨s, t, h1, h2, h3, h4, h5⟩
    refine ⟨-p, ⟨s, t, h1, h2, h3, ?_, ?_⟩, ?_, ?_⟩
    · simp [h4]; ring
    · simp [h5]; ring
    · simp
    · simp

/-- membership in the triangle, slice by slice -/
theorem mem_triangle (d y1 y2 : ℝ) (hd : 0 < d) (hy : y1 ≤ y2) (x y : ℝ) :
    (x, y) ∈ triangle (d, y1) (d, y2) ↔ ∃ s, 0 ≤ s ∧ s ≤ 1 ∧ x = s * d ∧ s * y1 ≤ y ∧ y ≤ s * y2 := by
  constructor
  · rintro ⟨s, t, h1, h2, h3, h4, h5⟩
    simp only at h4 h5
    refine ⟨s + t, by linarith, h3, by rw [h4]; ring, ?_, ?_⟩
    · rw [h5]; nlinarith
    · rw [h5]; nlinarith
  · rintro ⟨s, h0, h1, h2, h3, h4⟩
    by_cases hyy : y1 = y2
    · subst hyy
      exact ⟨s, 0, h0, le_rfl, by linarith, by simp [h2], by simp; linarith⟩
    · have hlt : y1 < y2 := lt_of_le_of_ne hy hyy
      have hp : 0 < y2 - y1 := by linarith
      refine ⟨(s * y2 - y) / (y2 - y1), (y - s * y1) / (y2 - y1), ?_, ?_, ?_, ?_, ?_⟩
      · exact div_nonneg (by linarith) hp.le
      · exact div_nonneg (by linarith) hp.le
      · rw [← add_div, div_le_one hp]; nlinarith
      · simp only; rw [h2]; field_simp; ring
      · simp only; field_simp; ring

/-- `∫_{y1}^{y2} (d-iy)^m (d^2+y^2)^k dy`. -/
noncomputable def tint (d y1 y2 : ℝ) (m k : ℕ) : ℂ := ∫ y in y1..y2, pmf m k (d, y)

theorem pm_triangle_pos (d y1 y2 : ℝ) (hd : 0 < d) (hy : y1 ≤ y2) (m k : ℕ) :
    pm (triangle (d, y1) (d, y2)) m k = ((d / ((m + 2 * k : ℕ) + 2) : ℝ) : ℂ) * tint d y1 y2 m k := by
  set n := m + 2 * k with hn
  set T := triangle (d, y1) (d, y2) with hT
  have hc : IsCompact T := triangle_compact _ _
  have hint : IntegrableOn (pmf m k) T := (pmf_continuous m k).continuousOn.integrableOn_compact hc
  rw [pm, ← integral_indicator hc.measurableSet]
  have hint2 : Integrable (T.indicator (pmf m k)) := (integrable_indicator_iff hc.measurableSet).2 hint
  rw [Measure.volume_eq_prod] at hint2 ⊢
  rw [integral_prod _ hint2]
  have key : ∀ x : ℝ, x ≠ 0 → ∫ y : ℝ, T.indicator (pmf m k) (x, y)
      = (Set.Ioc (0 : ℝ) d).indicator (fun x => (((x / d) ^ (n + 1) : ℝ) : ℂ) * tint d y1 y2 m k) x := by
    intro x hx0
    by_cases hx : x ∈ Set.Ioc (0 : ℝ) d
    · rw [Set.indicator_of_mem hx]
      set s := x / d with hs
      have hs0 : 0 < s := div_pos hx.1 hd
      have hs1 : s ≤ 1 := by rw [hs, div_le_one hd]; exact hx.2
      have hxs : x = s * d := by rw [hs]; field_simp
      have hsl : (fun y : ℝ => T.indicator (pmf m k) (x, y))
          = (Set.Icc (s * y1) (s * y2)).indicator (fun y => pmf m k (x, y)) := by
        ext y
        have hiff : (x, y) ∈ T ↔ y ∈ Set.Icc (s * y1) (s * y2) := by
          rw [hT, mem_triangle d y1 y2 hd hy]
          constructor
          · rintro ⟨t, _, _, h2, h3, h4⟩
            have : t = s := mul_right_cancel₀ hd.ne' (by rw [← h2, hxs])
            subst this; exact ⟨h3, h4⟩
          · rintro ⟨h3, h4⟩; exact ⟨s, hs0.le, hs1, hxs, h3, h4⟩
        by_cases hyT : (x, y) ∈ T
        · rw [Set.indicator_of_mem hyT, Set.indicator_of_mem (hiff.1 hyT)]
        · rw [Set.indicator_of_notMem hyT, Set.indicator_of_notMem (fun h => hyT (hiff.2 h))]
      rw [hsl, integral_indicator measurableSet_Icc, integral_Icc_eq_integral_Ioc,
        ← intervalIntegral.integral_of_le (by nlinarith)]
      have h1 := intervalIntegral.integral_comp_mul_left (a := y1) (b := y2)
        (fun y => pmf m k (x, y)) hs0.ne'
      have h2 : ∀ y : ℝ, pmf m k (x, s * y) = (s : ℂ) ^ n * pmf m k (d, y) := by
        intro y
        rw [hn, ← pmf_smul, hxs]; rfl
      simp_rw [h2] at h1
      rw [intervalIntegral.integral_const_mul] at h1
      have hsc : (s : ℂ) ≠ 0 := by exact_mod_cast hs0.ne'
      rw [Complex.real_smul] at h1
      push_cast at h1 ⊢
      rw [pow_succ, tint, mul_right_comm, h1]
      field_simp
    · rw [Set.indicator_of_notMem hx]
      have : (fun y : ℝ => T.indicator (pmf m k) (x, y)) = fun _ => 0 := by
        ext y
        apply Set.indicator_of_notMem
        rw [hT, mem_triangle d y1 y2 hd hy]
        rintro ⟨s, h0, h1, h2, _, _⟩
        apply hx
        refine ⟨lt_of_le_of_ne ?_ (Ne.symm hx0), ?_⟩
        · rw [h2]; positivity
        · rw [h2]; nlinarith
      rw [this]; simp
  have hae : (fun x => ∫ y : ℝ, T.indicator (pmf m k) (x, y)) =ᵐ[volume]
      (Set.Ioc (0 : ℝ) d).indicator (fun x => (((x / d) ^ (n + 1) : ℝ) : ℂ) * tint d y1 y2 m k) := by
    have h2 : ∀ᵐ z : ℝ, z ≠ 0 := by simp [ae_iff]
    filter_upwards [h2] with z hz
    exact key z hz
  rw [integral_congr_ae hae, integral_indicator measurableSet_Ioc, integral_mul_const,
    integral_complex_ofReal, ← intervalIntegral.integral_of_le hd.le]
  congr 2
  simp_rw [div_pow]
  rw [intervalIntegral.integral_div, integral_pow]
  push_cast
  have : (n : ℝ) + 1 + 1 ≠ 0 := by positivity
  rw [show (n : ℝ) + 1 + 1 = n + 2 by ring]
  field_simp
  ring

theorem pmf_neg (m k : ℕ) (x y : ℝ) : pmf m k (-x, -y) = (-1) ^ m * pmf m k (x, y) := by
  have := pmf_smul m k (-1) (x, y)
  rw [show ((-1 : ℝ) • (x, y) : ℝ × ℝ) = (-x, -y) by simp] at this
  rw [this, pow_add, pow_mul]; simp

theorem tint_neg (d y1 y2 : ℝ) (m k : ℕ) : tint (-d) (-y1) (-y2) m k = -((-1) ^ m * tint d y1 y2 m k) := by
  rw [tint, tint, ← intervalIntegral.integral_const_mul, ← intervalIntegral.integral_symm,
    ← intervalIntegral.integral_comp_neg]
  apply intervalIntegral.integral_congr
  intro y _
  have := pmf_neg m k d y
  exact this

theorem tint_swap (d y1 y2 : ℝ) (m k : ℕ) : tint d y2 y1 m k = -tint d y1 y2 m k := by
  rw [tint, intervalIntegral.integral_symm, tint]

theorem tint_zero (d y1 y2 : ℝ) : tint d y1 y2 0 0 = ((y2 - y1 : ℝ) : ℂ) := by
  simp [tint, pmf]

/-- The ratio that enters the uniform moment does not depend on the signs of `d` and `y2-y1`. -/
theorem pm_triangle (d y1 y2 : ℝ) (hd : d ≠ 0) :
    ∃ c : ℝ, c ≠ 0 ∧ (∀ m k : ℕ, pm (triangle (d, y1) (d, y2)) m k
      = (c : ℂ) * (((d / ((m + 2 * k : ℕ) + 2) : ℝ) : ℂ) * tint d y1 y2 m k)) := by
  have main : ∀ (d y1 y2 : ℝ), 0 < d → ∃ c : ℝ, c ≠ 0 ∧ (∀ m k : ℕ, pm (triangle (d, y1) (d, y2)) m k
      = (c : ℂ) * (((d / ((m + 2 * k : ℕ) + 2) : ℝ) : ℂ) * tint d y1 y2 m k)) := by
    intro d y1 y2 hd
    rcases le_total y1 y2 with h | h
    · exact ⟨1, one_ne_zero, fun m k => by rw [pm_triangle_pos d y1 y2 hd h]; simp⟩
    · refine ⟨-1, by norm_num, fun m k => ?_⟩
      rw [triangle_swap, pm_triangle_pos d y2 y1 hd h, tint_swap]; push_cast; ring
  rcases lt_or_gt_of_ne hd with h | h
  · obtain ⟨c, hc, hm⟩ := main (-d) (-y1) (-y2) (by linarith)
    refine ⟨c, hc, fun m k => ?_⟩
    have h2 := hm m k
    have h3 := rotated_pi (-d, -y1) (-d, -y2)
    simp only [Prod.neg_mk, neg_neg] at h3
    rw [← h3, pm_rotated, h2, tint_neg]
    have : Complex.exp (-Complex.I * m * Real.pi) = (-1) ^ m := by
      rw [show -Complex.I * m * (Real.pi : ℂ) = (m : ℕ) * (-(Real.pi * Complex.I)) by ring,
        Complex.exp_nat_mul, Complex.exp_neg, Complex.exp_pi_mul_I]; norm_num
    rw [this]
    have h4 : ((-1 : ℂ) ^ m) * (-1) ^ m = 1 := by rw [← mul_pow]; simp
    push_cast
    linear_combination (c : ℂ) * (d : ℂ) / ((m + 2 * k : ℂ) + 2) * tint d y1 y2 m k * h4
  · exact main d y1 y2 h

end Newt
