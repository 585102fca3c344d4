import Verif.Proofs.BigAnnMatch
import Verif.Proofs.QlmNumBodies
import Verif.Proofs.QlmBall

/-! # The outer moments of an annular section as products of one-dimensional integrals -/

namespace Newt

open MeasureTheory Spec QlmNum

theorem bigCylIntegrand_cos (l m : ℕ) (z r t : ℝ) :
    BigQlmNum.cylIntegrand l m z r t =
      ((-1) ^ m * Real.sqrt ((2 * l + 1) * gfac l m / (4 * Real.pi)) * Real.cos (m * t))
        * (r * cylShi l m z r / dd r z ^ (2 * l + 1)) := by
  rw [BigQlmNum.cylIntegrand, rpow_half _ (by positivity),
    show Complex.exp (Complex.I * m * t) = ((Real.cos (m * t) : ℝ) : ℂ) + ((Real.sin (m * t) : ℝ) : ℂ) * Complex.I by
      rw [show Complex.I * (m : ℂ) * (t : ℂ) = ((m * t : ℝ) : ℂ) * Complex.I by push_cast; ring, Complex.exp_mul_I,
        Complex.ofReal_cos, Complex.ofReal_sin]]
  have e : ∀ (A B D c s r : ℝ), ((A : ℂ) * ((-1) ^ m * (B : ℂ) * ((c : ℂ) + (s : ℂ) * Complex.I) / (D : ℂ) * (r : ℂ))).re
      = A * ((-1) ^ m * B * c / D * r) := by
    intro A B D c s r
    have : (A : ℂ) * ((-1) ^ m * (B : ℂ) * ((c : ℂ) + (s : ℂ) * Complex.I) / (D : ℂ) * (r : ℂ))
        = ((A * ((-1) ^ m * B * c / D * r) : ℝ) : ℂ) + ((A * ((-1) ^ m * B * s / D * r) : ℝ) : ℂ) * Complex.I := by
      push_cast; ring
    rw [this, Complex.add_re, Complex.ofReal_re, Complex.mul_I_re, Complex.ofReal_im, neg_zero, add_zero]
  rw [e, dd]
  ring

theorem azim_int (m : ℕ) (phih : ℝ) : ∫ t in -phih..phih, Real.cos (m * t) = azim m phih := by
  rw [azim]
  by_cases hm : m = 0
  · rw [if_pos hm, hm]; simp; ring
  · rw [if_neg hm]
    have hm' : (m : ℝ) ≠ 0 := by exact_mod_cast hm
    rw [intervalIntegral.integral_comp_mul_left (fun x => Real.cos x) hm', integral_cos]
    rw [mul_neg, Real.sin_neg, smul_eq_mul]
    field_simp
    ring

theorem tplquad_sector (l m : ℕ) (phih r0 r1 a b : ℝ) :
    tplquad (BigQlmNum.cylIntegrand l m) (-phih) phih (fun _ => r0) (fun _ => r1) (fun _ _ => a) (fun _ _ => b) =
      (-1) ^ m * Real.sqrt ((2 * l + 1) * gfac l m / (4 * Real.pi)) * azim m phih *
        ∫ r in r0..r1, ∫ z in a..b, r * cylShi l m z r / dd r z ^ (2 * l + 1) := by
  rw [tplquad, ← azim_int]
  simp_rw [bigCylIntegrand_cos, intervalIntegral.integral_const_mul]
  rw [intervalIntegral.integral_mul_const, intervalIntegral.integral_const_mul]

theorem cylShi_neg (l m : ℕ) (hm : m ≤ l) (z r : ℝ) : cylShi l m (-z) r = (-1) ^ (l + m) * cylShi l m z r := by
  rw [cylShi, cylShi, Finset.mul_sum]
  refine Finset.sum_congr rfl fun k hk => ?_
  have hk' := Finset.mem_range.1 hk
  have : (-z) ^ (l - (m + 2 * k)) = (-1) ^ (l + m) * z ^ (l - (m + 2 * k)) := by
    rw [neg_pow]
    congr 1
    have e : l + m = (l - (m + 2 * k)) + 2 * (m + k) := by omega
    rw [e, pow_add, pow_mul (-1 : ℝ) 2 (m + k)]; norm_num
  rw [this]; ring

theorem dd_neg (r z : ℝ) : dd r (-z) = dd r z := by rw [dd, dd, neg_sq]

theorem annInt_signed (l m : ℕ) (hm : m ≤ l) (H r0 r1 : ℝ) (hH : H ≠ 0) :
    (∫ r in r0..r1, ∫ z in (min 0 H)..(max 0 H), r * cylShi l m z r / dd r z ^ (2 * l + 1))
      = Real.sign H ^ (l + m) * annInt l m |H| r0 r1 := by
  rcases lt_or_gt_of_ne hH with h | h
  · rw [Real.sign_of_neg h, abs_of_neg h, min_eq_right h.le, max_eq_left h.le, annInt,
      ← intervalIntegral.integral_const_mul]
    refine intervalIntegral.integral_congr fun r _ => ?_
    beta_reduce
    have := intervalIntegral.integral_comp_neg (a := 0) (b := -H)
      (fun z => r * cylShi l m z r / dd r z ^ (2 * l + 1))
    rw [neg_neg, neg_zero] at this
    rw [← this, ← intervalIntegral.integral_const_mul]
    refine intervalIntegral.integral_congr fun z _ => ?_
    beta_reduce
    rw [cylShi_neg l m hm, dd_neg]
    ring
  · rw [Real.sign_of_pos h, abs_of_pos h, min_eq_left h.le, max_eq_right h.le, one_pow, one_mul, annInt]

theorem ann_outer0 (l m : ℕ) (hm : m ≤ l) (dens H r0 r1 phih : ℝ) (hH : H ≠ 0) (h0 : 0 < r0) (h1 : r0 ≤ r1) (hp : 0 < phih)
    (hpi : phih ≤ Real.pi) :
    densityOuter dens (slab (min 0 H) (max 0 H) (sector r0 r1 0 phih)) l m =
      ((dens * annVal l m (Real.sign H) |H| r0 r1 phih : ℝ) : ℂ) := by
  have hb := slab_sector_body phih r0 r1 (min 0 H) (max 0 H) hp hpi h0.le h1
    ((min_le_left 0 H).trans (le_max_left 0 H))
  rw [densityOuter, hb.outer r0 h0 (sector_le_modulus r0 r1 phih _ _ h0.le) l m hm, tplquad_sector,
    annInt_signed l m hm H r0 r1 hH, annVal]
  push_cast
  ring

/-! ## Rotation about z -/

theorem solidO_rz (l : ℕ) (m : ℤ) (t : ℝ) (v : V3) :
    solidO l m (rz t v) = Complex.exp (Complex.I * m * t) * solidO l m v := by
  rw [solidO, solidS_rz, rz_modulus, solidO, map_mul, ← Complex.exp_conj]
  simp only [map_mul, map_neg, Complex.conj_I, neg_neg, map_intCast, Complex.conj_ofReal]
  ring

theorem slab_rotated (h1 h2 phi : ℝ) (B : Set (ℝ × ℝ)) : slab h1 h2 (rotated phi B) = rz phi '' slab h1 h2 B := by
  ext v
  constructor
  · rintro ⟨a, b, p, hp, e1, e2⟩
    refine ⟨![p.1, p.2, v 2], ⟨a, b, hp⟩, ?_⟩
    funext i
    fin_cases i
    · simp only [rz, Fin.zero_eta, Matrix.cons_val_zero, Matrix.cons_val_one]
      simp only at e1
      rw [e1]; ring
    · simp only [rz, Fin.mk_one, Matrix.cons_val_zero, Matrix.cons_val_one]
      simp only at e2
      rw [e2]; ring
    · rfl
  · rintro ⟨w, ⟨a, b, hp⟩, rfl⟩
    refine ⟨a, b, (w 0, w 1), hp, ?_, ?_⟩
    · simp only [rz, Matrix.cons_val_zero]; ring
    · simp only [rz, Matrix.cons_val_one, Matrix.cons_val_zero]; ring

theorem densityOuter_sector (dens h1 h2 r0 r1 phic phih : ℝ) (l : ℕ) (m : ℤ) :
    densityOuter dens (slab h1 h2 (sector r0 r1 phic phih)) l m =
      Complex.exp (Complex.I * m * phic) * densityOuter dens (slab h1 h2 (sector r0 r1 0 phih)) l m := by
  rw [sector_rotated, slab_rotated, densityOuter, int_rz]
  simp_rw [solidO_rz]
  rw [integral_const_mul, densityOuter]
  ring

end Newt
