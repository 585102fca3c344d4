import Verif.Proofs.Addition
import Verif.Proofs.LegLip
import Verif.Proofs.Pg2Multi
import Verif.Spec.MomRounding

/-!
# How fast spherical harmonics and angles change
-/

namespace Newt

open Spec

/-- `1 - P_l(cos g) <= l^2 (1 - cos g)`. -/
theorem legendre_defect (zeta : ℂ) (hz : ‖zeta‖ = 1) (l : ℕ) : 1 - pz zeta.re 1 l ≤ (l : ℝ) ^ 2 * (1 - zeta.re) := by
  have hunit : ∀ w : ℂ, ‖w‖ = 1 → 1 - w.re = ‖w - 1‖ ^ 2 / 2 := by
    intro w hw
    have h1 : w.re ^ 2 + w.im ^ 2 = 1 := by
      have := Complex.normSq_eq_norm_sq w
      rw [hw, Complex.normSq_apply] at this
      nlinarith
    rw [← Complex.normSq_eq_norm_sq, Complex.normSq_apply]
    simp only [Complex.sub_re, Complex.one_re, Complex.sub_im, Complex.one_im]
    nlinarith
  have h := pz_cwP zeta l
  rw [cwP_sum, hz, one_pow] at h
  have h2 : pz zeta.re 1 l = ∑ p ∈ Finset.antidiagonal l, cw p.1 * cw p.2 * (zeta ^ p.1 * (starRingEnd ℂ) zeta ^ p.2).re := by
    have h3 := congrArg Complex.re h
    rw [Complex.ofReal_re, Complex.re_sum] at h3
    rw [h3]
    refine Finset.sum_congr rfl fun p _ => ?_
    rw [← Complex.re_ofReal_mul]
  rw [h2, ← cw_sum l, ← Finset.sum_sub_distrib]
  calc _ ≤ ∑ p ∈ Finset.antidiagonal l, (cw p.1 * cw p.2) * ((l : ℝ) ^ 2 * (1 - zeta.re)) := by
        refine Finset.sum_le_sum fun p hp => ?_
        have hp' := Finset.mem_antidiagonal.1 hp
        have h0 : 0 ≤ cw p.1 * cw p.2 := mul_nonneg (cw_nonneg _) (cw_nonneg _)
        have hw : ‖zeta ^ p.1 * (starRingEnd ℂ) zeta ^ p.2‖ = 1 := by
          rw [norm_mul, norm_pow, norm_pow, RCLike.norm_conj, hz]; simp
        have hl := mono2_lip 1 zeta 1 hz.le (by simp) p.1 p.2
        simp only [map_one, one_pow, mul_one] at hl
        rw [hp'] at hl
        have : cw p.1 * cw p.2 - cw p.1 * cw p.2 * (zeta ^ p.1 * (starRingEnd ℂ) zeta ^ p.2).re =
          (cw p.1 * cw p.2) * (1 - (zeta ^ p.1 * (starRingEnd ℂ) zeta ^ p.2).re) := by ring
        rw [this]
        refine mul_le_mul_of_nonneg_left ?_ h0
        rw [hunit _ hw, hunit _ hz]
        have : ‖zeta ^ p.1 * (starRingEnd ℂ) zeta ^ p.2 - 1‖ ^ 2 ≤ (l * ‖zeta - 1‖) ^ 2 := by gcongr
        rw [mul_pow] at this
        linarith
    _ = _ := by rw [← Finset.sum_mul, cw_sum, one_mul]; first | done | rw [cw_sum, one_mul]

theorem harmMax_sq (l : ℕ) : harmMax l ^ 2 = (2 * l + 1) / (4 * Real.pi) := Real.sq_sqrt (by have := Real.pi_pos; positivity)

theorem harmMax_nonneg (l : ℕ) : 0 ≤ harmMax l := Real.sqrt_nonneg _

theorem modulus_sub_sq (x y : V3) : modulus (x - y) ^ 2 = modulus x ^ 2 + modulus y ^ 2 - 2 * (x ⬝ᵥ y) := by
  rw [modulus_eq_sqrt, modulus_eq_sqrt, modulus_eq_sqrt, Real.sq_sqrt, Real.sq_sqrt, Real.sq_sqrt]
  · simp only [nsq, dotProduct, Fin.sum_univ_three, Pi.sub_apply]; ring
  all_goals · simp only [nsq]; positivity

theorem solidS_lip (l : ℕ) (m : ℤ) (hm : m.natAbs ≤ l) (x y : V3) (hx : modulus x = 1) (hy : modulus y = 1) :
    ‖solidS l m x - solidS l m y‖ ≤ harmMax l * (l * modulus (x - y)) := by
  have hy0 : y ≠ 0 := by
    rintro rfl
    rw [(modulus_eq_zero 0).2 rfl] at hy
    exact zero_ne_one hy
  have hsum : ∑ k ∈ Finset.Icc (-(l : ℤ)) l, ‖solidS l k x - solidS l k y‖ ^ 2 =
      ∑ k ∈ Finset.Icc (-(l : ℤ)) l, ‖solidS l k x‖ ^ 2 + ∑ k ∈ Finset.Icc (-(l : ℤ)) l, ‖solidS l k y‖ ^ 2 - 2 * (kern l x y).re := by
    rw [kern, Complex.re_sum, Finset.mul_sum, ← Finset.sum_add_distrib, ← Finset.sum_sub_distrib]
    refine Finset.sum_congr rfl fun k _ => ?_
    rw [← Complex.normSq_eq_norm_sq, ← Complex.normSq_eq_norm_sq, ← Complex.normSq_eq_norm_sq, Complex.normSq_sub]
  rw [sum_normSq_solidS, sum_normSq_solidS, kern_eq l x y hy0, Complex.ofReal_re, hx, hy] at hsum
  simp only [one_pow, mul_one, div_one] at hsum
  have hxy := modulus_sub_sq x y
  rw [hx, hy] at hxy
  set d := x ⬝ᵥ y with hd
  have hd1 : |d| ≤ 1 := by
    have h1 := sq_nonneg (modulus (x - y))
    have h2 : 0 ≤ 2 + 2 * d := by
      have : modulus (x - -y) ^ 2 = modulus x ^ 2 + modulus (-y) ^ 2 - 2 * (x ⬝ᵥ (-y)) := modulus_sub_sq x (-y)
      have hn : modulus (-y) = modulus y := by
        rw [modulus_eq_sqrt, modulus_eq_sqrt]; congr 1; simp [nsq]
      rw [hn, hx, hy, dotProduct_neg, ← hd] at this
      nlinarith [sq_nonneg (modulus (x - -y))]
    rw [abs_le]; constructor <;> nlinarith
  obtain ⟨g1, g2⟩ := abs_le.1 hd1
  have hz : ‖(⟨d, Real.sqrt (1 - d ^ 2)⟩ : ℂ)‖ = 1 := by
    rw [Complex.norm_def, Complex.normSq_mk, Real.mul_self_sqrt (by nlinarith)]
    rw [show d * d + (1 - d ^ 2) = 1 by ring, Real.sqrt_one]
  have hdef := legendre_defect ⟨d, Real.sqrt (1 - d ^ 2)⟩ hz l
  dsimp only at hdef
  have hone := Finset.single_le_sum (f := fun k => ‖solidS l k x - solidS l k y‖ ^ 2) (s := Finset.Icc (-(l : ℤ)) l)
    (fun i _ => by positivity) (Finset.mem_Icc.2 ⟨by omega, by omega⟩ : m ∈ _)
  rw [hsum] at hone
  refine abs_le_of_sq_le_sq' (a := ‖_‖) ?_ (by have := harmMax_nonneg l; have : 0 ≤ modulus (x - y) := Real.sqrt_nonneg _; positivity) |>.2
  refine hone.trans ?_
  rw [mul_pow, mul_pow, hxy, harmMax_sq]
  have hc : (0 : ℝ) ≤ (2 * l + 1) / (4 * Real.pi) := by have := Real.pi_pos; positivity
  nlinarith [mul_le_mul_of_nonneg_left hdef hc]

/-- The direction with the given angles (any polar angle). -/
noncomputable def dirV (phi theta : ℝ) : V3 := sphericalV 1 (Real.arccos (Real.cos theta)) phi

theorem sphHarm_dirV (l : ℕ) (m : ℤ) (hm : m.natAbs ≤ l) (phi theta : ℝ) :
    (starRingEnd ℂ) (sphHarm m l phi theta) = solidS l m (dirV phi theta) := by
  have h := sphHarm_solid 1 (Real.arccos (Real.cos theta)) phi (sin_arccos_nonneg _) l m hm
  rw [Complex.ofReal_one, one_pow, one_mul] at h
  rw [solidS, dirV, ← h]
  simp only [sphHarm, Real.cos_arccos (Real.neg_one_le_cos theta) (Real.cos_le_one theta)]

theorem dirV_eq (phi theta : ℝ) : dirV phi theta = ![|Real.sin theta| * Real.cos phi, |Real.sin theta| * Real.sin phi, Real.cos theta] := by
  have h : Real.sin (Real.arccos (Real.cos theta)) = |Real.sin theta| := by
    rw [Real.sin_arccos, ← Real.sqrt_sq_eq_abs]
    congr 1
    have := Real.sin_sq_add_cos_sq theta
    linarith
  rw [dirV, sphericalV, h, Real.cos_arccos (Real.neg_one_le_cos theta) (Real.cos_le_one theta)]
  simp

theorem modulus_dirV (phi theta : ℝ) : modulus (dirV phi theta) = 1 := by
  rw [modulus_eq_sqrt, dirV_eq, Real.sqrt_eq_one]
  simp only [nsq, Matrix.cons_val]
  have h1 := Real.sin_sq_add_cos_sq phi
  have h2 := Real.sin_sq_add_cos_sq theta
  have h3 := sq_abs (Real.sin theta)
  calc _ = |Real.sin theta| ^ 2 * (Real.sin phi ^ 2 + Real.cos phi ^ 2) + Real.cos theta ^ 2 := by ring
    _ = 1 := by rw [h1, h3]; linarith

theorem dirV_lip (phi theta phi' theta' : ℝ) : modulus (dirV phi theta - dirV phi' theta') ≤ |theta - theta'| + |phi - phi'| := by
  have hc : ∀ a b : ℝ, 1 - Real.cos (a - b) ≤ (a - b) ^ 2 / 2 := fun a b => by have := Real.one_sub_sq_div_two_le_cos (x := a - b); linarith
  refine abs_le_of_sq_le_sq' ?_ (by positivity) |>.2
  rw [modulus_sub_sq, modulus_dirV, modulus_dirV, dirV_eq, dirV_eq]
  simp only [dotProduct, Fin.sum_univ_three, Matrix.cons_val]
  set s := |Real.sin theta| with hs
  set s' := |Real.sin theta'| with hs'
  have e1 : s * Real.cos phi * (s' * Real.cos phi') + s * Real.sin phi * (s' * Real.sin phi') = s * s' * Real.cos (phi - phi') := by
    rw [Real.cos_sub]; ring
  rw [e1]
  have hs0 : 0 ≤ s := abs_nonneg _
  have hs0' : 0 ≤ s' := abs_nonneg _
  have hs1 : s ≤ 1 := Real.abs_sin_le_one _
  have hs1' : s' ≤ 1 := Real.abs_sin_le_one _
  have hss : Real.sin theta * Real.sin theta' ≤ s * s' := by rw [hs, hs', ← abs_mul]; exact le_abs_self _
  have h1 := hc theta theta'
  have h2 := hc phi phi'
  rw [Real.cos_sub theta theta'] at h1
  have h3 : s * s' ≤ 1 := mul_le_one₀ hs1 hs0' hs1'
  have h4 : 0 ≤ s * s' := by positivity
  have h5 : 0 ≤ 1 - Real.cos (phi - phi') := by linarith [Real.cos_le_one (phi - phi')]
  have h6 : s * s' * (1 - Real.cos (phi - phi')) ≤ 1 - Real.cos (phi - phi') := mul_le_of_le_one_left h5 h3
  have h7 : 0 ≤ |theta - theta'| * |phi - phi'| := by positivity
  rw [add_sq, sq_abs, sq_abs]
  nlinarith

/-- Spherical harmonics are Lipschitz in the angles. -/
theorem sphHarm_lip (l : ℕ) (m : ℤ) (hm : m.natAbs ≤ l) (phi theta phi' theta' : ℝ) :
    ‖sphHarm m l phi theta - sphHarm m l phi' theta'‖ ≤ harmMax l * (l * (|theta - theta'| + |phi - phi'|)) := by
  rw [← RCLike.norm_conj, map_sub, sphHarm_dirV l m hm, sphHarm_dirV l m hm]
  refine (solidS_lip l m hm _ _ (modulus_dirV _ _) (modulus_dirV _ _)).trans ?_
  have := harmMax_nonneg l
  gcongr
  exact dirV_lip _ _ _ _

theorem sphHarm_le (l : ℕ) (m : ℤ) (hm : m.natAbs ≤ l) (phi theta : ℝ) : ‖sphHarm m l phi theta‖ ≤ harmMax l := by
  rw [← RCLike.norm_conj, sphHarm_dirV l m hm]
  refine abs_le_of_sq_le_sq' ?_ (harmMax_nonneg l) |>.2
  rw [harmMax_sq]
  have := norm_solidS_sq_le l m hm (dirV phi theta)
  rwa [modulus_dirV, one_pow, mul_one] at this

/-- The harmonics do not see whole turns. -/
theorem sphHarm_turn (l : ℕ) (m : ℤ) (hm : m.natAbs ≤ l) (phi phi' theta : ℝ) (hc : Real.cos phi = Real.cos phi') (hs : Real.sin phi = Real.sin phi') :
    sphHarm m l phi theta = sphHarm m l phi' theta := by
  apply (starRingEnd ℂ).injective
  rw [sphHarm_dirV l m hm, sphHarm_dirV l m hm, dirV_eq, dirV_eq, hc, hs]

theorem sin_add_sin' (a b : ℝ) : Real.sin a + Real.sin b = 2 * Real.sin ((a + b) / 2) * Real.cos ((a - b) / 2) := by
  have h1 : a = (a + b) / 2 + (a - b) / 2 := by ring
  have h2 : b = (a + b) / 2 - (a - b) / 2 := by ring
  conv_lhs => rw [h1, Real.sin_add]
  conv_lhs => rhs; rw [h2, Real.sin_sub]
  ring_nf

/-- A small change of the cosine, away from the poles. -/
theorem arccos_lip {c c' : ℝ} (h : |c| ≤ 1) (h' : |c'| ≤ 1) :
    Real.sqrt (1 - c ^ 2) * |Real.arccos c' - Real.arccos c| ≤ Real.pi * |c' - c| ∧
    |Real.arccos c' - Real.arccos c| ≤ Real.pi * Real.sqrt (|c' - c| / 2) := by
  set a := Real.arccos c with ha
  set b := Real.arccos c' with hb
  have ca : Real.cos a = c := Real.cos_arccos (abs_le.1 h).1 (abs_le.1 h).2
  have cb : Real.cos b = c' := Real.cos_arccos (abs_le.1 h').1 (abs_le.1 h').2
  have a0 : 0 ≤ a := Real.arccos_nonneg _
  have a1 : a ≤ Real.pi := Real.arccos_le_pi _
  have b0 : 0 ≤ b := Real.arccos_nonneg _
  have b1 : b ≤ Real.pi := Real.arccos_le_pi _
  have hpi := Real.pi_pos
  set d := |b - a| with hd
  have d0 : 0 ≤ d := abs_nonneg _
  have d1 : d ≤ Real.pi := by rw [hd, abs_le]; constructor <;> linarith
  -- half the difference
  have hhalf : d / Real.pi ≤ Real.sin (d / 2) := by
    have := Real.mul_le_sin (x := d / 2) (by positivity) (by linarith)
    calc d / Real.pi = 2 / Real.pi * (d / 2) := by ring
      _ ≤ _ := this
  have hprod : |c' - c| = 2 * Real.sin ((a + b) / 2) * Real.sin (d / 2) := by
    rw [← ca, ← cb, Real.cos_sub_cos, abs_mul, abs_mul, abs_neg, abs_two]
    have e1 : |Real.sin ((b + a) / 2)| = Real.sin ((a + b) / 2) := by
      rw [add_comm b a]
      exact abs_of_nonneg (Real.sin_nonneg_of_nonneg_of_le_pi (by positivity) (by linarith))
    have e2 : |Real.sin ((b - a) / 2)| = Real.sin (d / 2) := by
      rcases abs_cases (b - a) with ⟨e, h⟩ | ⟨e, h⟩
      · rw [hd, e]
        exact abs_of_nonneg (Real.sin_nonneg_of_nonneg_of_le_pi (by linarith) (by linarith))
      · rw [hd, e, ← abs_neg, ← Real.sin_neg, ← neg_div]
        exact abs_of_nonneg (Real.sin_nonneg_of_nonneg_of_le_pi (by linarith) (by linarith))
    rw [e1, e2]
  have hs0 : 0 ≤ Real.sin (d / 2) := Real.sin_nonneg_of_nonneg_of_le_pi (by linarith) (by linarith)
  have hdp : 0 ≤ d / Real.pi := by positivity
  constructor
  · have hsin : Real.sqrt (1 - c ^ 2) = Real.sin a := by rw [ha, Real.sin_arccos]
    rw [hsin]
    have hmid : Real.sin a ≤ 2 * Real.sin ((a + b) / 2) := by
      have h1 := sin_add_sin' a b
      have h2 : 0 ≤ Real.sin b := Real.sin_nonneg_of_nonneg_of_le_pi b0 b1
      have h3 : 0 ≤ Real.sin ((a + b) / 2) := Real.sin_nonneg_of_nonneg_of_le_pi (by positivity) (by linarith)
      have h4 := Real.cos_le_one ((a - b) / 2)
      nlinarith
    have hsa : 0 ≤ Real.sin a := Real.sin_nonneg_of_nonneg_of_le_pi a0 a1
    rw [hprod]
    calc Real.sin a * d = Real.pi * (Real.sin a * (d / Real.pi)) := by field_simp
      _ ≤ Real.pi * (2 * Real.sin ((a + b) / 2) * Real.sin (d / 2)) := by
        refine mul_le_mul_of_nonneg_left (mul_le_mul hmid hhalf hdp (hsa.trans hmid)) hpi.le
  · have hmid : Real.sin (d / 2) ≤ Real.sin ((a + b) / 2) := by
      rcases le_total ((a + b) / 2) (Real.pi / 2) with hm | hm
      · apply Real.sin_le_sin_of_le_of_le_pi_div_two (by linarith) hm
        rcases abs_cases (b - a) with ⟨e, h⟩ | ⟨e, h⟩ <;> rw [hd, e] <;> linarith
      · rw [← Real.sin_pi_sub ((a + b) / 2)]
        apply Real.sin_le_sin_of_le_of_le_pi_div_two (by linarith) (by linarith)
        rcases abs_cases (b - a) with ⟨e, h⟩ | ⟨e, h⟩ <;> rw [hd, e] <;> linarith
    have h1 : (d / Real.pi) ^ 2 ≤ |c' - c| / 2 := by
      rw [hprod]
      calc (d / Real.pi) ^ 2 = (d / Real.pi) * (d / Real.pi) := by ring
        _ ≤ Real.sin (d / 2) * Real.sin (d / 2) := mul_le_mul hhalf hhalf hdp hs0
        _ ≤ Real.sin ((a + b) / 2) * Real.sin (d / 2) := mul_le_mul_of_nonneg_right hmid hs0
        _ = _ := by ring
    have h2 : d / Real.pi ≤ Real.sqrt (|c' - c| / 2) := Real.le_sqrt_of_sq_le h1
    rw [div_le_iff₀ hpi] at h2
    linarith

end Newt
