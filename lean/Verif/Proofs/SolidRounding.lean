import Verif.Proofs.WigRounding
import Verif.Proofs.QlmClosed
import Verif.Model.SolidFloat
import Verif.Spec.SolidRounding

/-!
# Rounding errors of the moments of annular sections and cones
-/

namespace Newt

open Spec Flt

variable {a : Arith} {u : ℝ} {e : ℕ → ℝ}

theorem op_up (h0 : 0 ≤ u) (h1 : u < 1) (ha : Accurate a u e) {k : ℕ} {x y z : ℝ} (h : UpTo (grow u k) x y) (hz : a.op y z) : UpTo (grow u (k + 1)) x z := by
  rw [← grow_add h1]; exact op_upTo h0 h1 ha (grow_one_le h0 h1 k) h hz

theorem lib_up (h0 : 0 ≤ u) (h1 : u < 1) (ha : Accurate a u e) {k : ℕ} {x y z : ℝ} (h : UpTo (grow u k) x y) (hz : a.lib y z) : UpTo (grow u (k + 1)) x z := by
  rw [← grow_add h1]; exact lib_upTo h0 h1 ha (grow_one_le h0 h1 k) h hz

theorem up_refl (x : ℝ) : UpTo (grow u 0) x x := by rw [grow_zero]; exact UpTo.refl le_rfl

theorem mul_up (h0 : 0 ≤ u) (h1 : u < 1) {j k : ℕ} {x y x' y' : ℝ} (h : UpTo (grow u j) x y) (h' : UpTo (grow u k) x' y') : UpTo (grow u (j + k)) (x * x') (y * y') := by
  rw [← grow_add h1]; exact h.mul (grow_one_le h0 h1 j) (grow_one_le h0 h1 k) h'

theorem div_up (h0 : 0 ≤ u) (h1 : u < 1) {j k : ℕ} {x y x' y' : ℝ} (h : UpTo (grow u j) x y) (h' : UpTo (grow u k) x' y') : UpTo (grow u (j + k)) (x / x') (y / y') := by
  rw [← grow_add h1]; exact h.div (grow_one_le h0 h1 j) (grow_one_le h0 h1 k) h'

theorem solFactor_upTo (h0 : 0 ≤ u) (h1 : u < 1) (ha : Accurate a u e) {pi0 mass f : ℝ} (hp : a.op Real.pi pi0) (h : SolFactor a pi0 mass f) :
    UpTo (grow u 4) (Qlm.factor mass) f := by
  obtain ⟨i, s, hi, hs, hf⟩ := h
  have p1 := op_up h0 h1 ha (up_refl Real.pi) hp
  have p2 := op_up h0 h1 ha (div_up h0 h1 (up_refl 1) (mul_up h0 h1 (up_refl 4) p1)) hi
  have p3 := op_up h0 h1 ha (p2.sqrt (grow_one_le h0 h1 _)) hs
  exact op_up h0 h1 ha (mul_up h0 h1 (up_refl mass) p3) hf

theorem coneFactor_upTo (h0 : 0 ≤ u) (h1 : u < 1) (ha : Accurate a u e) {pi0 mass f : ℝ} (hp : a.op Real.pi pi0) (h : ConeFactor a pi0 mass f) :
    UpTo (grow u 5) (3 * Qlm.factor mass) f := by
  obtain ⟨t, i, s, ht, hi, hs, hf⟩ := h
  have p1 := op_up h0 h1 ha (up_refl Real.pi) hp
  have p2 := op_up h0 h1 ha (div_up h0 h1 (up_refl 1) (mul_up h0 h1 (up_refl 4) p1)) hi
  have p3 := op_up h0 h1 ha (p2.sqrt (grow_one_le h0 h1 _)) hs
  have p4 := op_up h0 h1 ha (mul_up h0 h1 (op_up h0 h1 ha (up_refl (3 * mass)) ht) p3) hf
  rw [Qlm.factor, ← mul_assoc]
  exact p4

theorem exp_rel_mono (h0 : 0 ≤ u) (h1 : u < 1) {j k : ℕ} {x y : ℝ} (hjk : j ≤ k) (hx : 0 ≤ x) (hxy : x ≤ y) : Real.exp (relErr u j * x) ≤ Real.exp (relErr u k * y) :=
  Real.exp_le_exp.2 (mul_le_mul (relErr_mono h0 h1 hjk) hxy hx (relErr_nonneg h0 h1 k))

theorem gamRoot_upTo (h0 : 0 ≤ u) (h1 : u < 1) (ha : Accurate a u e) {l m : ℕ} (hm : m ≤ l) {r : ℝ} (h : GamRoot a l m r) :
    UpTo (Real.exp (relErr u 3 * Real.log (fct (2 * l))) * grow u 2) (Qlm.lmfac l m) r := by
  obtain ⟨g1, g2, s, v, a1, a2, a3, a4, a5⟩ := h
  have k1 : (0 : ℤ) ≤ (l : ℤ) + m := by omega
  have k2 : (0 : ℤ) ≤ (l : ℤ) - m := by omega
  have i1 := gammaln_fct (x := (l : ℝ) + m + 1) ((l : ℤ) + m) k1 (by push_cast; ring)
  have i2 := gammaln_fct (x := (l : ℝ) - m + 1) ((l : ℤ) - m) k2 (by push_cast; ring)
  rw [Qlm.lmfac]
  rw [i1] at a1 ⊢; rw [i2] at a2 ⊢
  have w1 := (op_within h0 h1 ha ((lib_within h0 h1 ha (log_fct_nonneg _) a1).add (lib_within h0 h1 ha (log_fct_nonneg _) a2)) a3).2
  have hb := (log_fct_add k1 k2).trans (log_fct_mono (c := 2 * (l : ℤ)) (by omega))
  have hE : |s - (Real.log (fct ((l : ℤ) + m)) + Real.log (fct ((l : ℤ) - m)))| ≤ relErr u 3 * Real.log (fct (2 * l)) := by
    refine w1.trans ?_
    rw [show grow u (1 + 1) - 1 = relErr u 2 by rw [grow]; ring]
    exact mul_le_mul (relErr_mono h0 h1 (by omega)) hb (add_nonneg (log_fct_nonneg _) (log_fct_nonneg _)) (relErr_nonneg h0 h1 3)
  have hc := one_le_exp' h0 h1 (k := 3) (x := Real.log (fct (2 * (l : ℤ)))) (log_fct_nonneg _)
  have g := grow_one_le h0 h1 1
  have u1 := (UpTo.exp hE).rd h0 h1 hc (ha.lib _ _ a4)
  have hc1 := one_le_mul_of_one_le_of_one_le hc g
  have u3 := (u1.sqrt hc1).rd h0 h1 hc1 (ha.op _ _ a5)
  rw [mul_assoc, grow_add h1] at u3
  exact u3

/-- `sin(x)/x` is insensitive to a relative change of `x`. -/
theorem sinc_upTo {c x y : ℝ} (hc : 1 ≤ c) (hx : x ≠ 0) (h : UpTo c x y) : |Real.sin y / y - Real.sin x / x| ≤ 2 * (c - 1) := by
  obtain ⟨θ, rfl, t1, t2⟩ := h
  have hc0 : 0 < c := by linarith
  have ht : 0 < θ := lt_of_lt_of_le (by positivity) t1
  have hi : θ⁻¹ ≤ c := by have := inv_anti₀ (by positivity) t1; rwa [inv_inv] at this
  have hi2 : c⁻¹ ≤ θ⁻¹ := inv_anti₀ ht t2
  have hcc : 2 - c ≤ c⁻¹ := by
    rw [← one_div, le_div_iff₀ hc0]; nlinarith [sq_nonneg (c - 1)]
  have e1 : Real.sin (θ * x) / (θ * x) - Real.sin x / x = (Real.sin (θ * x) - Real.sin x) / (θ * x) + (θ⁻¹ - 1) * (Real.sin x / x) := by
    field_simp
    ring
  have hs : |Real.sin (θ * x) - Real.sin x| ≤ |θ * x - x| := by
    have := Real.abs_sin_sub_sin_le (θ * x) x
    exact this
  have b1 : |(Real.sin (θ * x) - Real.sin x) / (θ * x)| ≤ |θ⁻¹ - 1| := by
    rw [abs_div, div_le_iff₀ (by positivity)]
    refine hs.trans (le_of_eq ?_)
    rw [← abs_mul, ← abs_neg]
    congr 1
    field_simp
    ring
  have b2 : |Real.sin x / x| ≤ 1 := by
    rw [abs_div, div_le_one (by positivity)]
    exact Real.abs_sin_le_abs
  have b3 : |θ⁻¹ - 1| ≤ c - 1 := abs_le.2 ⟨by linarith, by linarith⟩
  rw [e1]
  refine (abs_add_le _ _).trans ?_
  rw [abs_mul]
  nlinarith [abs_nonneg (θ⁻¹ - 1), abs_nonneg (Real.sin x / x)]

theorem sinc_within (h0 : 0 ≤ u) (h1 : u < 1) (ha : Accurate a u e) {pi0 phih v : ℝ} (hp : a.op Real.pi pi0) (hh : 0 < phih) {m : ℕ} (h : Sinc a pi0 m phih v) :
    Within (grow u 8) 1 (Qlm.sinc (m * phih)) v := by
  rcases h with ⟨rfl, rfl⟩ | ⟨hm, x1, x2, y, s, k1, k2, k3, k4, k5⟩
  · rw [Nat.cast_zero, zero_mul, Qlm.sinc, if_pos rfl]
    exact Within.refl (by simp) (grow_one_le h0 h1 8)
  · have hx : (m : ℝ) * phih ≠ 0 := mul_ne_zero (by exact_mod_cast hm) hh.ne'
    have hpi0 : pi0 ≠ 0 := by
      have := ha.op _ _ hp
      rintro rfl
      rw [zero_sub, abs_neg, abs_of_pos Real.pi_pos] at this
      nlinarith [Real.pi_pos]
    have u1 := op_up h0 h1 ha (up_refl ((m : ℝ) * phih)) k1
    have u2 := op_up h0 h1 ha (div_up h0 h1 u1 (up_refl pi0)) k2
    have u3 := op_up h0 h1 ha (mul_up h0 h1 (up_refl pi0) u2) k3
    rw [mul_div_cancel₀ _ hpi0] at u3
    norm_num at u3
    have s1 := sinc_upTo (grow_one_le h0 h1 3) hx u3
    have g3 := grow_one_le h0 h1 3
    have b2 : |Real.sin (m * phih) / (m * phih)| ≤ 1 := by
      rw [abs_div, div_le_one (by positivity)]
      exact Real.abs_sin_le_abs
    have w1 : Within (grow u 6) 1 (Real.sin (m * phih) / (m * phih)) (Real.sin y / y) := by
      refine ⟨b2, ?_⟩
      rw [Real.norm_eq_abs, mul_one]
      refine s1.trans ?_
      have e6 : grow u 6 = grow u 3 * grow u 3 := by rw [grow_add h1]
      rw [e6]; nlinarith
    have v1 := op_up h0 h1 ha (div_up h0 h1 (lib_up h0 h1 ha (up_refl (Real.sin y)) k4) (up_refl y)) k5
    norm_num at v1
    have v2 := (v1.within (grow_one_le h0 h1 2)).2
    have w2 := w1.round (e := grow u 2 - 1) (by have := grow_one_le h0 h1 2; linarith) v2
    rw [add_sub_cancel, grow_add h1] at w2
    rw [Qlm.sinc, if_neg hx]
    exact w2

theorem solPhase_within (h0 : 0 ≤ u) (h1 : u < 1) (ha : Accurate a u e) {l m : ℕ} (hm : m ≤ l) {phic : ℝ} {E : ℂ} (h : ExpI a m phic E) :
    Within ((1 + u * (l * |phic|)) * grow u 1) 1 (Qlm.phase m phic) E := by
  obtain ⟨y, hy, hre, him⟩ := h
  rw [Int.cast_natCast] at hy
  have b1 : (m : ℝ) ≤ l := by exact_mod_cast hm
  have a5 : |y - m * phic| ≤ u * (l * |phic|) := by
    refine (ha.op _ _ hy).trans (mul_le_mul_of_nonneg_left ?_ h0)
    rw [abs_mul, Nat.abs_cast]
    exact mul_le_mul_of_nonneg_right b1 (abs_nonneg _)
  rw [Qlm.phase, mul_assoc, show (m : ℂ) * phic = ((m * phic : ℝ) : ℂ) by push_cast; ring, phase_exp]
  refine Within.op h0 h1 (y := ⟨Real.cos y, -Real.sin y⟩) ⟨(phase_norm _).le, ?_⟩ ?_
  · rw [add_sub_cancel_left, mul_one]
    exact (phase_lip _ _).trans a5
  · refine abs_le_of_sq_le_sq' ?_ (by positivity) |>.2
    have k1 := ha.lib _ _ hre
    have k2 := ha.lib _ _ him
    rw [phase_norm, mul_one, ← Complex.normSq_eq_norm_sq, Complex.normSq_apply, Complex.sub_re, Complex.sub_im]
    have h3 : (E.re - Real.cos y) ^ 2 ≤ (u * |Real.cos y|) ^ 2 := sq_le_sq' (by linarith [(abs_le.1 k1).1]) (abs_le.1 k1).2
    have h4 : (E.im - -Real.sin y) ^ 2 ≤ (u * |-Real.sin y|) ^ 2 := sq_le_sq' (by linarith [(abs_le.1 k2).1]) (abs_le.1 k2).2
    rw [mul_pow, sq_abs] at h3 h4
    have := Real.sin_sq_add_cos_sq y
    simp only
    nlinarith

/-- The growth factor of `fac2` beyond that of the factor of the degree. -/
noncomputable def secGrow (u phic : ℝ) (l : ℕ) : ℝ := Real.exp (relErr u 3 * Real.log (fct (2 * l))) * (1 + u * (l * |phic|)) * grow u 14

theorem phaseFac_one_le (h0 : 0 ≤ u) (phic : ℝ) (l : ℕ) : 1 ≤ 1 + u * (l * |phic|) := by
  have : 0 ≤ u * (l * |phic|) := by positivity
  linarith

theorem secGrow_one_le (h0 : 0 ≤ u) (h1 : u < 1) (phic : ℝ) (l : ℕ) : 1 ≤ secGrow u phic l :=
  one_le_mul_of_one_le_of_one_le (one_le_mul_of_one_le_of_one_le (one_le_exp' h0 h1 (log_fct_nonneg _)) (phaseFac_one_le h0 phic l)) (grow_one_le h0 h1 _)

theorem secFac_within' (h0 : 0 ≤ u) (h1 : u < 1) (ha : Accurate a u e) {pi0 phih phic : ℝ} (hp : a.op Real.pi pi0) (hh : 0 < phih) {l m : ℕ} (hm : m ≤ l) {cF F0 F : ℝ} (G' : 1 ≤ cF)
    (hF : UpTo cF F0 F) {z : ℂ} (h : SecFac a pi0 F l m phic phih z) :
    Within (cF * secGrow u phic l) (|F0 * Qlm.lmfac l m|) (((F0 * Qlm.lmfac l m : ℝ) : ℂ) * (((Qlm.sinc (m * phih) : ℝ) : ℂ) * Qlm.phase m phic)) z := by
  obtain ⟨r, f, v, E, w, h1', h2, h3, h4, h5, h6⟩ := h
  have G := grow_one_le h0 h1
  have P := phaseFac_one_le h0 phic l
  set B := Real.exp (relErr u 3 * Real.log (fct (2 * l))) with hB
  have B1 : 1 ≤ B := one_le_exp' h0 h1 (log_fct_nonneg _)
  have f1 := op_upTo h0 h1 ha (one_le_mul_of_one_le_of_one_le G' (one_le_mul_of_one_le_of_one_le B1 (G 2)))
    (hF.mul G' (one_le_mul_of_one_le_of_one_le B1 (G 2)) (gamRoot_upTo h0 h1 ha hm h1')) h2
  have K1 := one_le_mul_of_one_le_of_one_le (one_le_mul_of_one_le_of_one_le G' (one_le_mul_of_one_le_of_one_le B1 (G 2))) (G 1)
  have w1 := cscale_within' h0 h1 ha (G 8) (sinc_within h0 h1 ha hp hh h3) (solPhase_within h0 h1 ha hm h4) h5
  have w2 := cscale_within' h0 h1 ha K1 (f1.within K1) w1 h6
  rw [mul_one, mul_one] at w2
  refine w2.mono (one_le_mul_of_one_le_of_one_le (one_le_mul_of_one_le_of_one_le K1 ?_) (G 1)) (le_of_eq ?_) le_rfl
  · exact one_le_mul_of_one_le_of_one_le (one_le_mul_of_one_le_of_one_le (G 8) (one_le_mul_of_one_le_of_one_le P (G 1))) (G 1)
  · rw [secGrow, show (14 : ℕ) = 2 + 1 + 8 + 1 + 1 + 1 by rfl]
    simp only [← grow_add h1]
    ring

theorem secFac_within (h0 : 0 ≤ u) (h1 : u < 1) (ha : Accurate a u e) {pi0 phih phic : ℝ} (hp : a.op Real.pi pi0) (hh : 0 < phih) {l m : ℕ} (hm : m ≤ l) {k : ℕ} {F0 F : ℝ}
    (hF : UpTo (grow u k) F0 F) {z : ℂ} (h : SecFac a pi0 F l m phic phih z) :
    Within (grow u k * secGrow u phic l) (|F0 * Qlm.lmfac l m|) (((F0 * Qlm.lmfac l m : ℝ) : ℂ) * (((Qlm.sinc (m * phih) : ℝ) : ℂ) * Qlm.phase m phic)) z :=
  secFac_within' h0 h1 ha hp hh hm (grow_one_le h0 h1 k) hF h

/-- Division by a rounded divisor. -/
theorem cdiv_upTo (h0 : 0 ≤ u) (h1 : u < 1) (ha : Accurate a u e) {c c' w d0 d : ℝ} (hc : 1 ≤ c) (hc' : 1 ≤ c') (hd : 0 < d0) (hdd : UpTo c' d0 d) {z0 z v : ℂ} (hz : Within c w z0 z)
    (h : CDiv a z d v) : Within (c' * c * grow u 2) (w / d0) (z0 / d0) v := by
  have G := grow_one_le h0 h1
  have hi := hdd.inv hc'
  have hw := hi.within hc'
  rw [abs_of_pos (by positivity : 0 < d0⁻¹)] at hw
  have e1 : w / d0 = d0⁻¹ * w := by rw [div_eq_inv_mul]
  have e2 : z0 / d0 = ((d0⁻¹ : ℝ) : ℂ) * z0 := by push_cast; rw [div_eq_inv_mul]
  rw [e1, e2]
  rcases h with h | ⟨s, hs, h⟩
  · have e3 : z / d = ((d⁻¹ : ℝ) : ℂ) * z := by push_cast; rw [div_eq_inv_mul]
    rw [e3] at h
    have := Within.op h0 h1 (hw.ofReal.mul hz hc') (cop_err h0 ha h)
    exact this.mono (one_le_mul_of_one_le_of_one_le (one_le_mul_of_one_le_of_one_le hc' hc) (G 1))
      (mul_le_mul_of_nonneg_left (grow_mono h0 h1 (by omega)) (by positivity)) le_rfl
  · rw [one_div] at hs
    have k1 := Within.op h0 h1 hw (ha.op _ _ hs)
    have k2 := cscale_within' h0 h1 ha (one_le_mul_of_one_le_of_one_le hc' (G 1)) k1 hz h
    refine k2.mono (one_le_mul_of_one_le_of_one_le (one_le_mul_of_one_le_of_one_le (one_le_mul_of_one_le_of_one_le hc' (G 1)) hc) (G 1)) (le_of_eq ?_) le_rfl
    rw [show (2 : ℕ) = 1 + 1 by rfl, ← grow_add h1]; ring

end Newt
