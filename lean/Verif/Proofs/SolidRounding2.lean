import Verif.Proofs.SolidRounding
import Verif.Proofs.TransRounding2

/-!
# Rounding errors of the moments of annular sections and cones: the entries
-/

namespace Newt

open Spec Flt

variable {a : Arith} {u : ℝ} {e : ℕ → ℝ}

theorem annTerm_within (h0 : 0 ≤ u) (h1 : u < 1) (ha : Accurate a u e) {H Ri Ro : ℝ} (hH : 0 < H) (hRi : 0 ≤ Ri) (hRo : 0 ≤ Ro) {l m k : ℕ} (hk : 2 * k + m ≤ l) {t : ℝ}
    (h : AnnTerm a H Ri Ro l m k t) :
    Within (Real.exp (relErr u 3 * Real.log (fct (l + 1))) * grow u 8)
      (H ^ (l - 2 * k - m) / ((2 : ℝ) ^ ((l : ℤ) - 1) * (2 * k + m + 2)) * ((Ro ^ (2 * k + m + 2) + Ri ^ (2 * k + m + 2)) / (k.factorial * (m + k).factorial * (l - m - 2 * k + 1).factorial)))
      ((-1) ^ (k + m) * H ^ (l - 2 * k - m) / ((2 : ℝ) ^ ((l : ℤ) - 1) * (2 * k + m + 2)) * ((Ro ^ (2 * k + m + 2) - Ri ^ (2 * k + m + 2)) / Qlm.gam3 l m k)) t := by
  obtain ⟨h, D, q, Po, Pi, d, g1, g2, g3, s1, s2, g, e', a1, a2, a3, a4, a5, a6, a7, a8, a9, a10, a11, a12, a13, a14⟩ := h
  have G := grow_one_le h0 h1
  have i1 := gammaln_fct (x := (k : ℝ) + 1) k (by omega) (by push_cast; ring)
  have i2 := gammaln_fct (x := (m : ℝ) + k + 1) ((m : ℤ) + k) (by omega) (by push_cast; ring)
  have i3 := gammaln_fct (x := (l : ℝ) - m - 2 * k + 2) ((l : ℤ) - m - 2 * k + 1) (by omega) (by push_cast; ring)
  have eg : Qlm.gam3 l m k = k.factorial * (m + k).factorial * (l - m - 2 * k + 1).factorial := by
    rw [Qlm.gam3, Real.exp_add, Real.exp_add, exp_gammaln_nat _ k rfl, exp_gammaln_nat _ (m + k) (by push_cast; ring),
      exp_gammaln_nat _ (l - m - 2 * k + 1) (by rw [Nat.cast_add, Nat.cast_sub (by omega), Nat.cast_sub (by omega)]; push_cast; ring)]
  rw [← eg]
  have gpos : 0 < Qlm.gam3 l m k := Real.exp_pos _
  rw [i1] at a7; rw [i2] at a8; rw [i3] at a10
  rw [Qlm.gam3, i1, i2, i3] at gpos ⊢
  have L := fun {n : ℤ} {y : ℝ} (h : a.lib (Real.log (fct n)) y) => lib_within h0 h1 ha (log_fct_nonneg n) h
  have w1 := op_within h0 h1 ha ((L a7).add (L a8)) a9
  have w2 := (op_within h0 h1 ha (w1.addk h0 h1 (L a10) (le_refl 2) (by omega)) a11).2
  have hb : Real.log (fct k) + Real.log (fct ((m : ℤ) + k)) + Real.log (fct ((l : ℤ) - m - 2 * k + 1)) ≤ Real.log (fct (l + 1)) := by
    have b1 := log_fct_add (b := k) (c := (m : ℤ) + k) (by omega) (by omega)
    have b2 := log_fct_add (b := (k : ℤ) + (m + k)) (c := (l : ℤ) - m - 2 * k + 1) (by omega) (by omega)
    have b3 := log_fct_mono (b := (k : ℤ) + (m + k) + ((l : ℤ) - m - 2 * k + 1)) (c := (l : ℤ) + 1) (by omega)
    linarith
  have hE : |s2 - (Real.log (fct k) + Real.log (fct ((m : ℤ) + k)) + Real.log (fct ((l : ℤ) - m - 2 * k + 1)))| ≤ relErr u 3 * Real.log (fct (l + 1)) := by
    refine w2.trans ?_
    rw [show grow u (2 + 1) - 1 = relErr u 3 by rw [grow]; ring]
    exact mul_le_mul_of_nonneg_left hb (relErr_nonneg h0 h1 3)
  set B := Real.exp (relErr u 3 * Real.log (fct ((l : ℤ) + 1))) with hB
  have B1 : 1 ≤ B := one_le_exp' h0 h1 (log_fct_nonneg _)
  have ug := lib_upTo h0 h1 ha B1 (UpTo.exp hE) a12
  have hg1 := one_le_mul_of_one_le_of_one_le B1 (G 1)
  have gw := (ug.inv hg1).within hg1
  rw [abs_of_pos (by positivity)] at gw
  have d1 := op_within h0 h1 ha ((lib_within h0 h1 ha (by positivity) a4).sub (lib_within h0 h1 ha (by positivity) a5)) a6
  have e1 := Within.op h0 h1 (d1.mul gw (G _)) (by rw [← div_eq_mul_inv]; exact ha.op _ _ a13)
  have hD : UpTo (grow u 1) ((2 : ℝ) ^ ((l : ℤ) - 1) * (2 * k + m + 2)) D := op_up h0 h1 ha (up_refl _) a2
  have q1 := op_up h0 h1 ha (div_up h0 h1 (mul_up h0 h1 (up_refl ((-1 : ℝ) ^ (k + m))) (lib_up h0 h1 ha (up_refl (H ^ (l - 2 * k - m))) a1)) hD) a3
  have q2 := q1.within (G _)
  have ab : |(-1 : ℝ) ^ (k + m) * H ^ (l - 2 * k - m) / ((2 : ℝ) ^ ((l : ℤ) - 1) * (2 * k + m + 2))| = H ^ (l - 2 * k - m) / ((2 : ℝ) ^ ((l : ℤ) - 1) * (2 * k + m + 2)) := by
    rw [abs_div, abs_mul, abs_pow, abs_neg, abs_one, one_pow, one_mul, abs_of_pos (pow_pos hH _), abs_of_pos (by positivity)]
  rw [ab] at q2
  have t1 := Within.op h0 h1 (q2.mul e1 (G _)) (ha.op _ _ a14)
  rw [div_eq_mul_inv (_ - _) (Real.exp _), div_eq_mul_inv (_ + _) (Real.exp _)]
  refine t1.mono ?_ (le_of_eq ?_) le_rfl
  · exact one_le_mul_of_one_le_of_one_le (one_le_mul_of_one_le_of_one_le (G _) (one_le_mul_of_one_le_of_one_le (one_le_mul_of_one_le_of_one_le (G _) hg1) (G 1))) (G 1)
  · have e8 : grow u 8 = grow u (0 + (0 + 1) + 1 + 1) * (grow u (1 + 1) * grow u 1 * grow u 1) * grow u 1 := by
      simp only [grow_add h1]
    rw [e8]; ring

theorem coneTerm_within (h0 : 0 ≤ u) (h1 : u < 1) (ha : Accurate a u e) {P R : ℝ} (hP : 0 < P) (hR : 0 < R) {l m k : ℕ} (hk : 2 * k + m ≤ l) {t : ℝ}
    (h : ConeTerm a P R l m k t) :
    Within (Real.exp (relErr u 3 * (2 * Real.log (fct (l + 1)))) * grow u 8)
      (P ^ (l - 2 * k - m) * R ^ (2 * k + m) / (2 : ℝ) ^ ((2 * k + m : ℤ) - 1) * ((2 * k + m + 1).factorial / (k.factorial * (m + k).factorial)))
      ((-1) ^ (k + m) * P ^ (l - 2 * k - m) * R ^ (2 * k + m) / (2 : ℝ) ^ ((2 * k + m : ℤ) - 1)
        * Real.exp (gammaln (2 * k + m + 2) - (gammaln ((k : ℝ) + 1) + gammaln ((m : ℝ) + k + 1)))) t := by
  obtain ⟨g1, g2, g3, s1, s2, p, r, q, v, x, a1, a2, a3, a4, a5, a6, a7, a8, a9, a10, a11⟩ := h
  have G := grow_one_le h0 h1
  have i1 := gammaln_fct (x := 2 * (k : ℝ) + m + 2) (2 * (k : ℤ) + m + 1) (by omega) (by push_cast; ring)
  have i2 := gammaln_fct (x := (k : ℝ) + 1) k (by omega) (by push_cast; ring)
  have i3 := gammaln_fct (x := (m : ℝ) + k + 1) ((m : ℤ) + k) (by omega) (by push_cast; ring)
  have eg : Real.exp (gammaln (2 * k + m + 2) - (gammaln ((k : ℝ) + 1) + gammaln ((m : ℝ) + k + 1))) = (2 * k + m + 1).factorial / (k.factorial * (m + k).factorial) := by
    rw [Real.exp_sub, Real.exp_add, exp_gammaln_nat _ (2 * k + m + 1) (by push_cast; ring), exp_gammaln_nat _ k rfl, exp_gammaln_nat _ (m + k) (by push_cast; ring)]
  rw [← eg]
  rw [i1] at a1; rw [i2] at a2; rw [i3] at a3
  rw [i1, i2, i3]
  have L := fun {n : ℤ} {y : ℝ} (h : a.lib (Real.log (fct n)) y) => lib_within h0 h1 ha (log_fct_nonneg n) h
  have w1 := op_within h0 h1 ha ((L a2).add (L a3)) a4
  have w2 := (op_within h0 h1 ha ((L a1).subk h0 h1 w1 (by omega : 1 ≤ 2) le_rfl) a5).2
  have hb : Real.log (fct (2 * (k : ℤ) + m + 1)) + (Real.log (fct k) + Real.log (fct ((m : ℤ) + k))) ≤ 2 * Real.log (fct (l + 1)) := by
    have b1 := log_fct_add (b := k) (c := (m : ℤ) + k) (by omega) (by omega)
    have b2 := log_fct_mono (b := (k : ℤ) + (m + k)) (c := (l : ℤ) + 1) (by omega)
    have b3 := log_fct_mono (b := 2 * (k : ℤ) + m + 1) (c := (l : ℤ) + 1) (by omega)
    linarith
  have hE : |s2 - (Real.log (fct (2 * (k : ℤ) + m + 1)) - (Real.log (fct k) + Real.log (fct ((m : ℤ) + k))))| ≤ relErr u 3 * (2 * Real.log (fct (l + 1))) := by
    refine w2.trans ?_
    rw [show grow u (2 + 1) - 1 = relErr u 3 by rw [grow]; ring]
    exact mul_le_mul_of_nonneg_left hb (relErr_nonneg h0 h1 3)
  set B := Real.exp (relErr u 3 * (2 * Real.log (fct ((l : ℤ) + 1)))) with hB
  have B1 : 1 ≤ B := one_le_exp' h0 h1 (by have := log_fct_nonneg ((l : ℤ) + 1); linarith)
  have ug := lib_upTo h0 h1 ha B1 (UpTo.exp hE) a10
  have hg1 := one_le_mul_of_one_le_of_one_le B1 (G 1)
  have q1 := op_up h0 h1 ha (mul_up h0 h1 (mul_up h0 h1 (up_refl ((-1 : ℝ) ^ (k + m))) (lib_up h0 h1 ha (up_refl (P ^ (l - 2 * k - m))) a6)) (lib_up h0 h1 ha (up_refl (R ^ (2 * k + m))) a7)) a8
  have v1 := op_up h0 h1 ha (div_up h0 h1 q1 (up_refl ((2 : ℝ) ^ ((2 * k + m : ℤ) - 1)))) a9
  have t0 := op_upTo h0 h1 ha (one_le_mul_of_one_le_of_one_le (G _) hg1) (v1.mul (G _) hg1 ug) a11
  have hc := one_le_mul_of_one_le_of_one_le (one_le_mul_of_one_le_of_one_le (G (0 + (0 + 1) + (0 + 1) + 1 + 0 + 1)) hg1) (G 1)
  have t1 := t0.within hc
  refine t1.mono hc ?_ (le_of_eq ?_)
  · have e8 : grow u (0 + (0 + 1) + (0 + 1) + 1 + 0 + 1) * (B * grow u 1) * grow u 1 = B * grow u 6 := by
      rw [show (6 : ℕ) = (0 + (0 + 1) + (0 + 1) + 1 + 0 + 1) + 1 + 1 by rfl]; simp only [← grow_add h1]; ring
    rw [e8]
    exact mul_le_mul_of_nonneg_left (grow_mono h0 h1 (by omega)) (by linarith)
  · rw [abs_mul, abs_div, abs_mul, abs_mul, abs_pow, abs_neg, abs_one, one_pow, one_mul, abs_of_pos (pow_pos hP _), abs_of_pos (pow_pos hR _), abs_of_pos (Real.exp_pos _),
      abs_of_pos (by positivity : (0 : ℝ) < 2 ^ ((2 * k + m : ℤ) - 1))]

/-- The sum over `k` times the factor of the entry. -/
theorem section_within (h0 : 0 ≤ u) (h1 : u < 1) (ha : Accurate a u e) {pi0 phih phic : ℝ} (hp : a.op Real.pi pi0) (hh : 0 < phih) {l m : ℕ} (hm : m ≤ l) {F0 cF : ℝ} {n : ℕ}
    {B : ℝ} (hB : 1 ≤ B) {wt xt : ℕ → ℝ} {ts : List ℝ} {S : ℝ} {f z : ℂ} {T : ℕ → ℝ → Prop} (hT : ∀ k ∈ List.range ((l - m) / 2 + 1), ∀ t, T k t → Within (B * grow u 8) (wt k) (xt k) t)
    (hts : List.Forall₂ T (List.range ((l - m) / 2 + 1)) ts) (hS : Adds a.op ts 0 S) {C : ℝ} (hC : 1 ≤ C) (hcF : cF = C * grow u n) (hf : Within (cF * secGrow u phic l) |F0 * Qlm.lmfac l m|
      (((F0 * Qlm.lmfac l m : ℝ) : ℂ) * (((Qlm.sinc (m * phih) : ℝ) : ℂ) * Qlm.phase m phic)) f) (hz : CMul a S f z) :
    Within (B * C * Real.exp (relErr u 3 * Real.log (fct (2 * l))) * (1 + u * (l * |phic|)) * grow u (27 + n + l)) ((∑ k ∈ Finset.range ((l - m) / 2 + 1), wt k) * |F0 * Qlm.lmfac l m|)
      ((∑ k ∈ Finset.range ((l - m) / 2 + 1), ((xt k : ℝ) : ℂ)) * (((F0 * Qlm.lmfac l m : ℝ) : ℂ) * (((Qlm.sinc (m * phih) : ℝ) : ℂ) * Qlm.phase m phic))) z := by
  have G := grow_one_le h0 h1
  have hc := one_le_mul_of_one_le_of_one_le hB (G 8)
  have w1 := adds_within h0 h1 ha hS (c := B * grow u 8) (w0 := 0) (x0 := 0) hc (Within.refl (by simp) hc) (forall₂_mem hts hT)
  rw [zero_add, zero_add, range_sum', range_sum', List.length_range] at w1
  have hS1 := one_le_mul_of_one_le_of_one_le hc (G ((l - m) / 2 + 1))
  have w2 := cmulC h0 h1 ha hS1 w1.ofReal hf hz
  rw [Complex.ofReal_sum] at w2
  have hCF : 1 ≤ cF := by rw [hcF]; exact one_le_mul_of_one_le_of_one_le hC (G n)
  refine w2.mono (one_le_mul_of_one_le_of_one_le (one_le_mul_of_one_le_of_one_le hS1 (one_le_mul_of_one_le_of_one_le hCF (secGrow_one_le h0 h1 _ _))) (G 4)) ?_ le_rfl
  have e1 : B * grow u 8 * grow u ((l - m) / 2 + 1) * (cF * secGrow u phic l) * grow u 4 =
      B * C * Real.exp (relErr u 3 * Real.log (fct (2 * l))) * (1 + u * (l * |phic|)) * grow u (8 + ((l - m) / 2 + 1) + n + 14 + 4) := by
    rw [hcF, secGrow]; simp only [← grow_add h1]; ring
  rw [e1]
  refine mul_le_mul_of_nonneg_left (grow_mono h0 h1 (by omega)) ?_
  have := phaseFac_one_le h0 phic l
  positivity

end Newt
