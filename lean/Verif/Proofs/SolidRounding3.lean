import Verif.Proofs.SolidRounding2

/-!
# Rounding errors of the moments of annular sections and cones: the arrays
-/

namespace Newt

open Spec Flt

variable {a : Arith} {u : ℝ} {e : ℕ → ℝ}

theorem solidNorm_eq (mass : ℝ) {l m : ℕ} (hm : m ≤ l) : |Qlm.factor mass * Real.sqrt (2 * l + 1) * Qlm.lmfac l m| = solidNorm mass l m := by
  rw [lmfac_eq l m hm, Qlm.factor, solidNorm, abs_mul, abs_mul, abs_mul, abs_of_nonneg (Real.sqrt_nonneg _), abs_of_nonneg (Real.sqrt_nonneg _), abs_of_nonneg (Real.sqrt_nonneg _)]

theorem wall_upTo (h0 : 0 ≤ u) (h1 : u < 1) (ha : Accurate a u e) {Ri Ro Po Pi rf : ℝ} (hRi : 0 ≤ Ri) (hR : Ri < Ro) (hw : wallErr u Ri Ro < 1) (k1 : a.lib (Ro ^ 2) Po)
    (k2 : a.lib (Ri ^ 2) Pi) (k3 : a.op (Po - Pi) rf) : UpTo ((1 - wallErr u Ri Ro)⁻¹ * grow u 1) (Ro ^ 2 - Ri ^ 2) rf := by
  have hd : 0 < Ro ^ 2 - Ri ^ 2 := by nlinarith
  have hw0 : 0 ≤ wallErr u Ri Ro := mul_nonneg h0 (div_nonneg (by positivity) hd.le)
  have c1 : 1 ≤ (1 - wallErr u Ri Ro)⁻¹ := (one_le_inv₀ (by linarith)).2 (by linarith)
  refine op_upTo h0 h1 ha c1 ?_ k3
  have b1 := ha.lib _ _ k1
  have b2 := ha.lib _ _ k2
  rw [abs_of_nonneg (sq_nonneg Ro)] at b1
  rw [abs_of_nonneg (sq_nonneg Ri)] at b2
  have b3 : |(Po - Pi) - (Ro ^ 2 - Ri ^ 2)| ≤ wallErr u Ri Ro * (Ro ^ 2 - Ri ^ 2) := by
    rw [wallErr, mul_assoc, div_mul_cancel₀ _ hd.ne']
    calc |(Po - Pi) - (Ro ^ 2 - Ri ^ 2)| = |(Po - Ro ^ 2) - (Pi - Ri ^ 2)| := by congr 1; ring
      _ ≤ |Po - Ro ^ 2| + |Pi - Ri ^ 2| := abs_sub _ _
      _ ≤ _ := by linarith
  obtain ⟨b4, b5⟩ := abs_le.1 b3
  refine ⟨(Po - Pi) / (Ro ^ 2 - Ri ^ 2), (div_mul_cancel₀ _ hd.ne').symm, ?_, ?_⟩
  · rw [inv_inv, le_div_iff₀ hd]; linarith
  · rw [div_le_iff₀ hd]
    have : 1 + wallErr u Ri Ro ≤ (1 - wallErr u Ri Ro)⁻¹ := by
      rw [← one_div, le_div_iff₀ (by linarith)]; nlinarith [sq_nonneg (wallErr u Ri Ro)]
    nlinarith

theorem annAbs_sum {mass H Ri Ro : ℝ} {l m : ℕ} (hpar : (l - m) % 2 = 0) (hm : m ≤ l) : annAbs mass H Ri Ro l m =
    (∑ k ∈ Finset.range ((l - m) / 2 + 1), H ^ (l - 2 * k - m) / ((2 : ℝ) ^ ((l : ℤ) - 1) * (2 * k + m + 2)) *
      ((Ro ^ (2 * k + m + 2) + Ri ^ (2 * k + m + 2)) / (k.factorial * (m + k).factorial * (l - m - 2 * k + 1).factorial))) *
      |Qlm.factor mass * Real.sqrt (2 * l + 1) * Qlm.lmfac l m| / (Ro ^ 2 - Ri ^ 2) := by
  rw [annAbs, if_pos hpar, solidNorm_eq mass hm]

theorem annAbs_nonneg {mass H Ri Ro : ℝ} (hH : 0 < H) (hRi : 0 ≤ Ri) (hR : Ri < Ro) (l m : ℕ) : 0 ≤ annAbs mass H Ri Ro l m := by
  have hd : 0 < Ro ^ 2 - Ri ^ 2 := by nlinarith
  have hRo : 0 ≤ Ro := hRi.trans hR.le
  rw [annAbs]
  split_ifs
  · refine div_nonneg (mul_nonneg (Finset.sum_nonneg fun k _ => by positivity) ?_) hd.le
    rw [solidNorm]; positivity
  · exact le_rfl

theorem annCell_within (h0 : 0 ≤ u) (h1 : u < 1) (ha : Accurate a u e) {mass H Ri Ro phic phih pi0 f0 rf : ℝ} (hH : 0 < H) (hRi : 0 ≤ Ri) (hR : Ri < Ro) (hh : 0 < phih)
    (hw : wallErr u Ri Ro < 1) (hp : a.op Real.pi pi0) (hf : SolFactor a pi0 mass f0) (hrf : UpTo ((1 - wallErr u Ri Ro)⁻¹ * grow u 1) (Ro ^ 2 - Ri ^ 2) rf) {l m : ℕ} (hm : m ≤ l)
    {z v : ℂ} (hz : AnnCell a pi0 f0 H Ri Ro phic phih l m z) (hv : CDiv a z rf v) :
    Within (annGrow u Ri Ro phic l) (annAbs mass H Ri Ro l m) (Qlm.annulusCell mass H Ri Ro phic phih l m / ((Ro ^ 2 - Ri ^ 2 : ℝ) : ℂ)) v := by
  have hd : 0 < Ro ^ 2 - Ri ^ 2 := by nlinarith
  have hw0 : 0 ≤ wallErr u Ri Ro := mul_nonneg h0 (div_nonneg (by positivity) hd.le)
  have c1 : 1 ≤ (1 - wallErr u Ri Ro)⁻¹ := (one_le_inv₀ (by linarith)).2 (by linarith)
  have G := grow_one_le h0 h1
  have P := phaseFac_one_le h0 phic l
  have c2 := one_le_mul_of_one_le_of_one_le c1 (G 1)
  set B := Real.exp (relErr u 3 * Real.log (fct ((l : ℤ) + 1))) with hB
  set C := Real.exp (relErr u 3 * Real.log (fct (2 * (l : ℤ)))) with hC
  have B1 : 1 ≤ B := one_le_exp' h0 h1 (log_fct_nonneg _)
  have C1 : 1 ≤ C := one_le_exp' h0 h1 (log_fct_nonneg _)
  have hBC : annGrow u Ri Ro phic l = (1 - wallErr u Ri Ro)⁻¹ * (B * C * (1 + u * (l * |phic|)) * grow u (36 + l)) := by
    rw [annGrow, mul_add (relErr u 3), Real.exp_add, grow, div_eq_mul_inv]; ring
  have key : ∀ {w : ℝ} {z0 : ℂ}, Within (B * C * (1 + u * (l * |phic|)) * grow u (33 + l)) w z0 z → Within (annGrow u Ri Ro phic l) (w / (Ro ^ 2 - Ri ^ 2)) (z0 / ((Ro ^ 2 - Ri ^ 2 : ℝ) : ℂ)) v := by
    intro w z0 hz
    have k1 := one_le_mul_of_one_le_of_one_le (one_le_mul_of_one_le_of_one_le (one_le_mul_of_one_le_of_one_le B1 C1) P) (G (33 + l))
    refine (cdiv_upTo h0 h1 ha k1 c2 hd hrf hz hv).mono (one_le_mul_of_one_le_of_one_le (one_le_mul_of_one_le_of_one_le c2 k1) (G 2)) (le_of_eq ?_) le_rfl
    rw [hBC, show 36 + l = 1 + (33 + l) + 2 by omega]
    simp only [← grow_add h1]; ring
  rw [AnnCell] at hz
  by_cases hpar : (l - m) % 2 = 0
  · rw [if_pos hpar] at hz
    obtain ⟨sq, F, ts, S, f, a1, a2, a3, a4, a5, a6⟩ := hz
    have uF := op_up h0 h1 ha (mul_up h0 h1 (solFactor_upTo h0 h1 ha hp hf) (op_up h0 h1 ha (up_refl (Real.sqrt (2 * l + 1))) a1)) a2
    have hf := secFac_within h0 h1 ha hp hh hm uF a5
    have w1 := section_within h0 h1 ha hp hh hm B1 (fun k hk t ht => annTerm_within h0 h1 ha hH hRi (hRi.trans hR.le) (by rw [List.mem_range] at hk; omega) ht) a3 a4 (C := 1) le_rfl
      (one_mul _).symm hf a6
    rw [annAbs_sum hpar hm, Qlm.annulusCell, if_pos hpar]
    refine key ?_
    rw [mul_one] at w1
    exact w1
  · rw [if_neg hpar] at hz
    subst hz
    rw [annAbs, if_neg hpar, Qlm.annulusCell, if_neg hpar]
    have := key (w := 0) (z0 := 0) (Within.refl (by simp) (one_le_mul_of_one_le_of_one_le (one_le_mul_of_one_le_of_one_le (one_le_mul_of_one_le_of_one_le B1 C1) P) (G (33 + l))))
    rwa [zero_div] at this

theorem coneCell_within (h0 : 0 ≤ u) (h1 : u < 1) (ha : Accurate a u e) {mass P R phic phih pi0 f0 : ℝ} (hP : 0 < P) (hR : 0 < R) (hh : 0 < phih) (hp : a.op Real.pi pi0)
    (hf : ConeFactor a pi0 mass f0) {l m : ℕ} (hm : m ≤ l) {z : ℂ} (hz : ConeCell a pi0 f0 P R phic phih l m z) :
    Within (coneGrow u phic l) (coneAbs mass P R l m) (Qlm.coneCell mass P R phic phih l m) z := by
  have G := grow_one_le h0 h1
  have Ph := phaseFac_one_le h0 phic l
  obtain ⟨F, ts, S, f, ⟨sq, p, g, x, b1, b2, b3, b4, b5⟩, a2, a3, a4, a5⟩ := hz
  have i1 := gammaln_fct (x := (l : ℝ) + 4) ((l : ℤ) + 3) (by omega) (by push_cast; ring)
  set B := Real.exp (relErr u 3 * (2 * Real.log (fct ((l : ℤ) + 1)))) with hB
  set C := Real.exp (relErr u 3 * Real.log (fct ((l : ℤ) + 3))) with hC
  have B1 : 1 ≤ B := one_le_exp' h0 h1 (by have := log_fct_nonneg ((l : ℤ) + 1); linarith)
  have C1 : 1 ≤ C := one_le_exp' h0 h1 (log_fct_nonneg _)
  have up := op_up h0 h1 ha (mul_up h0 h1 (coneFactor_upTo h0 h1 ha hp hf) (op_up h0 h1 ha (up_refl (Real.sqrt (2 * l + 1))) b1)) b2
  rw [i1] at b3
  have hE : |g - Real.log (fct ((l : ℤ) + 3))| ≤ relErr u 3 * Real.log (fct ((l : ℤ) + 3)) := by
    refine (lib_within h0 h1 ha (log_fct_nonneg _) b3).2.trans (mul_le_mul_of_nonneg_right ?_ (log_fct_nonneg _))
    have := grow_mono h0 h1 (show 1 ≤ 3 by omega)
    rw [grow, grow] at this
    rw [grow]; linarith
  have ux := lib_upTo h0 h1 ha C1 (UpTo.exp hE) b4
  have hC' := one_le_mul_of_one_le_of_one_le C1 (G 1)
  have uF := op_upTo h0 h1 ha (one_le_mul_of_one_le_of_one_le (G _) hC') (up.div (G _) hC' ux) b5
  have uF' : UpTo (C * grow u 9) (3 * Qlm.factor mass * Real.sqrt (2 * l + 1) / Real.exp (Real.log (fct ((l : ℤ) + 3)))) F := by
    have e1 : grow u (5 + (0 + 1) + 1) * (C * grow u 1) * grow u 1 = C * grow u 9 := by
      rw [show (9 : ℕ) = (5 + (0 + 1) + 1) + 1 + 1 by rfl]; simp only [← grow_add h1]; ring
    rwa [e1] at uF
  have hf' := secFac_within' h0 h1 ha hp hh hm (one_le_mul_of_one_le_of_one_le C1 (G 9)) uF' a4
  have w1 := section_within h0 h1 ha hp hh hm B1 (fun k hk t ht => coneTerm_within h0 h1 ha hP hR (by rw [List.mem_range] at hk; omega) ht) a2 a3 C1 rfl hf' a5
  rw [← i1] at w1
  have c0 : 1 ≤ B * C * Real.exp (relErr u 3 * Real.log (fct (2 * (l : ℤ)))) * (1 + u * (l * |phic|)) * grow u (27 + 9 + l) :=
    one_le_mul_of_one_le_of_one_le (one_le_mul_of_one_le_of_one_le (one_le_mul_of_one_le_of_one_le (one_le_mul_of_one_le_of_one_le B1 C1) (one_le_exp' h0 h1 (log_fct_nonneg _))) Ph) (G _)
  rw [Qlm.coneCell, coneAbs]
  refine w1.mono c0 (le_of_eq ?_) (le_of_eq ?_)
  · rw [coneGrow, mul_add (relErr u 3), mul_add (relErr u 3), Real.exp_add, Real.exp_add, grow]; ring
  · congr 1
    rw [← solidNorm_eq mass hm, exp_gammaln_nat _ (l + 3) (by push_cast; ring), abs_mul, abs_div, abs_mul, abs_mul, abs_mul, abs_mul, abs_of_pos (by norm_num : (0 : ℝ) < 3), Nat.abs_cast]
    ring

theorem coneAbs_nonneg {mass P R : ℝ} (hP : 0 < P) (hR : 0 < R) (l m : ℕ) : 0 ≤ coneAbs mass P R l m := by
  rw [coneAbs, solidNorm]; positivity

end Newt
