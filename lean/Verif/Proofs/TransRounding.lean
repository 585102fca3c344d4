import Verif.Proofs.ForceRounding2
import Verif.Model.TransFloat
import Verif.Spec.TransRounding

/-!
# Rounding errors of `cgCoeff`
-/

namespace Newt

open Spec Flt

variable {a : Arith} {u : ℝ} {e : ℕ → ℝ}

/-- `y` is `x` up to a factor between `1/c` and `c`. -/
def UpTo (c x y : ℝ) : Prop := ∃ θ, y = θ * x ∧ c⁻¹ ≤ θ ∧ θ ≤ c

theorem UpTo.mono {c c' x y : ℝ} (hc : 1 ≤ c) (hcc : c ≤ c') (h : UpTo c x y) : UpTo c' x y := by
  obtain ⟨θ, rfl, h1, h2⟩ := h
  exact ⟨θ, rfl, (inv_anti₀ (by linarith) hcc).trans h1, h2.trans hcc⟩

theorem UpTo.refl {c x : ℝ} (hc : 1 ≤ c) : UpTo c x x := ⟨1, by ring, inv_le_one_of_one_le₀ hc, hc⟩

theorem UpTo.trans {c c' x y z : ℝ} (hc : 1 ≤ c) (hc' : 1 ≤ c') (h : UpTo c x y) (h' : UpTo c' y z) : UpTo (c * c') x z := by
  obtain ⟨θ, rfl, h1, h2⟩ := h
  obtain ⟨φ, rfl, h3, h4⟩ := h'
  have i1 : 0 ≤ c⁻¹ := by positivity
  have i2 : 0 ≤ c'⁻¹ := by positivity
  refine ⟨θ * φ, by ring, ?_, mul_le_mul h2 h4 (i2.trans h3) (by linarith)⟩
  rw [mul_inv]
  exact mul_le_mul h1 h3 i2 (i1.trans h1)

theorem UpTo.mul {c c' x y x' y' : ℝ} (hc : 1 ≤ c) (hc' : 1 ≤ c') (h : UpTo c x y) (h' : UpTo c' x' y') : UpTo (c * c') (x * x') (y * y') := by
  obtain ⟨θ, rfl, h1, h2⟩ := h
  obtain ⟨φ, rfl, h3, h4⟩ := h'
  have i1 : 0 ≤ c⁻¹ := by positivity
  have i2 : 0 ≤ c'⁻¹ := by positivity
  refine ⟨θ * φ, by ring, ?_, mul_le_mul h2 h4 (i2.trans h3) (by linarith)⟩
  rw [mul_inv]
  exact mul_le_mul h1 h3 i2 (i1.trans h1)

theorem UpTo.inv {c x y : ℝ} (hc : 1 ≤ c) (h : UpTo c x y) : UpTo c x⁻¹ y⁻¹ := by
  obtain ⟨θ, rfl, h1, h2⟩ := h
  have i1 : 0 < c⁻¹ := by positivity
  have ht : 0 < θ := i1.trans_le h1
  refine ⟨θ⁻¹, by rw [mul_inv], inv_anti₀ ht h2, ?_⟩
  have := inv_anti₀ i1 h1
  rwa [inv_inv] at this

theorem UpTo.div {c c' x y x' y' : ℝ} (hc : 1 ≤ c) (hc' : 1 ≤ c') (h : UpTo c x y) (h' : UpTo c' x' y') : UpTo (c * c') (x / x') (y / y') := by
  rw [div_eq_mul_inv, div_eq_mul_inv]
  exact h.mul hc hc' (h'.inv hc')

theorem UpTo.sqrt {c x y : ℝ} (hc : 1 ≤ c) (h : UpTo c x y) : UpTo c (Real.sqrt x) (Real.sqrt y) := by
  obtain ⟨θ, rfl, h1, h2⟩ := h
  have i1 : 0 < c⁻¹ := by positivity
  have i2 : c⁻¹ ≤ 1 := inv_le_one_of_one_le₀ hc
  have ht : 0 ≤ θ := i1.le.trans h1
  refine ⟨Real.sqrt θ, Real.sqrt_mul ht _, ?_, ?_⟩
  · exact Real.le_sqrt_of_sq_le (le_trans (by nlinarith) h1)
  · exact Real.sqrt_le_iff.2 ⟨by linarith, h2.trans (by nlinarith)⟩

theorem UpTo.pow {c x y : ℝ} (hc : 1 ≤ c) (h : UpTo c x y) (n : ℕ) : UpTo (c ^ n) (x ^ n) (y ^ n) := by
  induction n with
  | zero => simpa using UpTo.refl (x := 1) (le_refl (1 : ℝ))
  | succ n ih => rw [pow_succ, pow_succ, pow_succ]; exact ih.mul (one_le_pow₀ hc) hc h

theorem UpTo.ofNear (h0 : 0 ≤ u) (h1 : u < 1) {k : ℕ} {x y : ℝ} (h : Near u k x y) : UpTo (grow u k) x y := by
  obtain ⟨θ, rfl, t1, t2⟩ := h
  have e1 : grow u k = ((1 - u) ^ k)⁻¹ := by rw [grow, relErr]; ring
  exact ⟨θ, rfl, by rw [e1, inv_inv]; exact t1, by rw [e1]; exact t2⟩

/-- One rounded operation. -/
theorem UpTo.rd (h0 : 0 ≤ u) (h1 : u < 1) {c x y z : ℝ} (hc : 1 ≤ c) (h : UpTo c x y) (hz : |z - y| ≤ u * |y|) : UpTo (c * grow u 1) x z :=
  h.trans hc (grow_one_le h0 h1 1) (UpTo.ofNear h0 h1 (near_of_rd h0 h1 hz))

theorem UpTo.exp {S s δ : ℝ} (h : |s - S| ≤ δ) : UpTo (Real.exp δ) (Real.exp S) (Real.exp s) := by
  refine ⟨Real.exp (s - S), by rw [← Real.exp_add]; congr 1; ring, ?_, Real.exp_le_exp.2 (abs_le.1 h).2⟩
  rw [← Real.exp_neg]
  exact Real.exp_le_exp.2 (abs_le.1 h).1

theorem UpTo.within {c x y : ℝ} (hc : 1 ≤ c) (h : UpTo c x y) : Within c |x| x y := by
  obtain ⟨θ, rfl, h1, h2⟩ := h
  refine ⟨le_rfl, ?_⟩
  rw [show θ * x - x = (θ - 1) * x by ring, norm_mul, Real.norm_eq_abs, Real.norm_eq_abs]
  refine mul_le_mul_of_nonneg_right (abs_le.2 ⟨?_, by linarith⟩) (abs_nonneg _)
  have hc0 : 0 < c := by linarith
  have e : c⁻¹ * c = 1 := inv_mul_cancel₀ hc0.ne'
  have : 0 < c⁻¹ := by positivity
  nlinarith

/-! ## Sums of logarithms of factorials -/

theorem lib_within (h0 : 0 ≤ u) (h1 : u < 1) (ha : Accurate a u e) {x y : ℝ} (hx : 0 ≤ x) (h : a.lib x y) : Within (grow u 1) x x y := by
  have := Within.op h0 h1 (Within.refl (x := x) (w := x) (c := 1) (by rw [Real.norm_eq_abs, abs_of_nonneg hx]) le_rfl) (ha.lib _ _ h)
  rwa [one_mul] at this

theorem log_fct_nonneg (n : ℤ) : 0 ≤ Real.log (fct n) := log_fact_nonneg _

theorem log_fct_add {b c : ℤ} (hb : 0 ≤ b) (hc : 0 ≤ c) : Real.log (fct b) + Real.log (fct c) ≤ Real.log (fct (b + c)) := by
  rw [← Real.log_mul (fct_ne_zero b) (fct_ne_zero c)]
  refine Real.log_le_log (mul_pos (fct_pos b) (fct_pos c)) ?_
  have h3 : b.toNat.factorial * c.toNat.factorial ≤ (b + c).toNat.factorial := by
    rw [show (b + c).toNat = b.toNat + c.toNat by omega]
    exact Nat.le_of_dvd (Nat.factorial_pos _) (Nat.factorial_mul_factorial_dvd_factorial_add _ _)
  rw [fct, fct, fct]
  exact_mod_cast h3

theorem log_fct_mono {b c : ℤ} (h : b ≤ c) : Real.log (fct b) ≤ Real.log (fct c) := by
  refine Real.log_le_log (fct_pos b) ?_
  have h3 : b.toNat.factorial ≤ c.toNat.factorial := Nat.factorial_le (by omega)
  rw [fct, fct]
  exact_mod_cast h3

theorem gammaln_fct {x : ℝ} (n : ℤ) (hn : 0 ≤ n) (hx : x = n + 1) : gammaln x = Real.log (fct n) := gammaln_log x n hn hx

theorem gam6_within (h0 : 0 ≤ u) (h1 : u < 1) (ha : Accurate a u e) {x1 x2 x3 x4 x5 x6 s : ℝ} (n1 n2 n3 n4 n5 n6 : ℤ) (p1 : 0 ≤ n1) (p2 : 0 ≤ n2) (p3 : 0 ≤ n3)
    (p4 : 0 ≤ n4) (p5 : 0 ≤ n5) (p6 : 0 ≤ n6) (e1 : x1 = n1 + 1) (e2 : x2 = n2 + 1) (e3 : x3 = n3 + 1) (e4 : x4 = n4 + 1) (e5 : x5 = n5 + 1) (e6 : x6 = n6 + 1)
    (h : Gam6 a x1 x2 x3 x4 x5 x6 s) :
    |s - (gammaln x1 + gammaln x2 + (gammaln x3 + gammaln x4) + (gammaln x5 + gammaln x6))| ≤
      relErr u 4 * (Real.log (fct n1) + Real.log (fct n2) + (Real.log (fct n3) + Real.log (fct n4)) + (Real.log (fct n5) + Real.log (fct n6))) := by
  obtain ⟨g1, g2, g3, g4, g5, g6, p, q, t, r, a1, a2, a3, a4, a5, a6, a7, a8, a9, a10, a11⟩ := h
  rw [gammaln_fct n1 p1 e1] at a1 ⊢; rw [gammaln_fct n2 p2 e2] at a2 ⊢; rw [gammaln_fct n3 p3 e3] at a4 ⊢
  rw [gammaln_fct n4 p4 e4] at a5 ⊢; rw [gammaln_fct n5 p5 e5] at a8 ⊢; rw [gammaln_fct n6 p6 e6] at a9 ⊢
  have L := fun {n : ℤ} {y : ℝ} (h : a.lib (Real.log (fct n)) y) => lib_within h0 h1 ha (log_fct_nonneg n) h
  have w1 := op_within h0 h1 ha ((L a1).add (L a2)) a3
  have w2 := op_within h0 h1 ha ((L a4).add (L a5)) a6
  have w3 := op_within h0 h1 ha (w1.add w2) a7
  have w4 := op_within h0 h1 ha ((L a8).add (L a9)) a10
  have w5 := (op_within h0 h1 ha (w3.addk h0 h1 w4 (le_refl 3) (by omega)) a11).2
  rw [Real.norm_eq_abs] at w5
  refine w5.trans_eq ?_
  rw [grow]; ring

theorem one_le_exp' (h0 : 0 ≤ u) (h1 : u < 1) {k : ℕ} {x : ℝ} (hx : 0 ≤ x) : 1 ≤ Real.exp (relErr u k * x) :=
  Real.one_le_exp (mul_nonneg (relErr_nonneg h0 h1 k) hx)

/-- `fac1` with its exact value. -/
theorem cgFac1_upTo (h0 : 0 ≤ u) (h1 : u < 1) (ha : Accurate a u e) {j1 j2 J : ℤ} (k1 : 0 ≤ J + j1 - j2) (k2 : 0 ≤ J - j1 + j2) (k3 : 0 ≤ j1 + j2 - J) {f : ℝ}
    (h : CgFac1 a j1 j2 J f) :
    UpTo (Real.exp (relErr u 4 * (2 * Real.log (fct (j1 + j2 + J + 1)))) * grow u 3)
      (Real.sqrt ((2 * J + 1) * Real.exp (gammaln (J + j1 - j2 + 1) + gammaln (J - j1 + j2 + 1) + (gammaln (j1 + j2 - J + 1) - gammaln (j1 + j2 + J + 2))))) f := by
  obtain ⟨g1, g2, g3, g4, p, q, s, v, w, a1, a2, a3, a4, a5, a6, a7, a8, a9, a10⟩ := h
  have i1 := gammaln_fct (x := J + j1 - j2 + 1) (J + j1 - j2) k1 (by push_cast; ring)
  have i2 := gammaln_fct (x := J - j1 + j2 + 1) (J - j1 + j2) k2 (by push_cast; ring)
  have i3 := gammaln_fct (x := j1 + j2 - J + 1) (j1 + j2 - J) k3 (by push_cast; ring)
  have i4 := gammaln_fct (x := j1 + j2 + J + 2) (j1 + j2 + J + 1) (by omega) (by push_cast; ring)
  rw [i1] at a1 ⊢; rw [i2] at a2 ⊢; rw [i3] at a4 ⊢; rw [i4] at a5 ⊢
  have L := fun {n : ℤ} {y : ℝ} (h : a.lib (Real.log (fct n)) y) => lib_within h0 h1 ha (log_fct_nonneg n) h
  have w1 := op_within h0 h1 ha ((L a1).add (L a2)) a3
  have w2 := op_within h0 h1 ha ((L a4).sub (L a5)) a6
  have w3 := (op_within h0 h1 ha (w1.add w2) a7).2
  have b1 := log_fct_add k1 k2
  have b2 := log_fct_add (add_nonneg k1 k2) k3
  have b3 := log_fct_mono (b := J + j1 - j2 + (J - j1 + j2) + (j1 + j2 - J)) (c := j1 + j2 + J + 1) (by omega)
  have hE : |s - (Real.log (fct (J + j1 - j2)) + Real.log (fct (J - j1 + j2)) + (Real.log (fct (j1 + j2 - J)) - Real.log (fct (j1 + j2 + J + 1))))| ≤
      relErr u 4 * (2 * Real.log (fct (j1 + j2 + J + 1))) := by
    rw [Real.norm_eq_abs] at w3
    refine w3.trans ?_
    have e1 : grow u (1 + 1 + 1) - 1 = relErr u 3 := by rw [grow]; ring
    rw [e1]
    have r1 := relErr_nonneg h0 h1 3
    have r2 := relErr_mono h0 h1 (by omega : 3 ≤ 4)
    have l1 := log_fct_nonneg (j1 + j2 + J + 1)
    exact mul_le_mul r2 (by linarith) (by linarith [log_fct_nonneg (J + j1 - j2), log_fct_nonneg (J - j1 + j2), log_fct_nonneg (j1 + j2 - J)]) (r1.trans r2)
  have hc := one_le_exp' h0 h1 (k := 4) (x := 2 * Real.log (fct (j1 + j2 + J + 1))) (by linarith [log_fct_nonneg (j1 + j2 + J + 1)])
  have g := grow_one_le h0 h1 1
  have u1 := (UpTo.exp hE).rd h0 h1 hc (ha.lib _ _ a8)
  have hc1 := one_le_mul_of_one_le_of_one_le hc g
  have u2 := ((UpTo.refl (x := 2 * (J : ℝ) + 1) (le_refl (1 : ℝ))).mul le_rfl hc1 u1).rd h0 h1 (by rwa [one_mul]) (ha.op _ _ a9)
  rw [one_mul] at u2
  have hc2 := one_le_mul_of_one_le_of_one_le hc1 g
  have u3 := (u2.sqrt hc2).rd h0 h1 hc2 (ha.op _ _ a10)
  rw [mul_assoc, mul_assoc, grow_add h1, grow_add h1] at u3
  exact u3

/-- `fac2` with its exact value. -/
theorem cgFac2_upTo (h0 : 0 ≤ u) (h1 : u < 1) (ha : Accurate a u e) {j1 j2 m1 m2 J M : ℤ} (k4 : 0 ≤ j1 - m1) (k5 : 0 ≤ j1 + m1) (k6 : 0 ≤ j2 - m2) (k7 : 0 ≤ j2 + m2)
    (k8 : 0 ≤ J + M) (k9 : 0 ≤ J - M) (k1 : 0 ≤ J + j1 - j2) (k2 : 0 ≤ J - j1 + j2) (k3 : 0 ≤ j1 + j2 - J) {f : ℝ} (h : CgFac2 a j1 j2 m1 m2 J M f) :
    UpTo (Real.exp (relErr u 4 * (3 * Real.log (fct (j1 + j2 + J + 1)))) * grow u 2)
      (Real.sqrt (Real.exp (gammaln (J + M + 1) + gammaln (J - M + 1) + (gammaln (j1 - m1 + 1) + gammaln (j1 + m1 + 1)) +
        (gammaln (j2 - m2 + 1) + gammaln (j2 + m2 + 1))))) f := by
  obtain ⟨s, v, a1, a2, a3⟩ := h
  have w := gam6_within h0 h1 ha (J + M) (J - M) (j1 - m1) (j1 + m1) (j2 - m2) (j2 + m2) k8 k9 k4 k5 k6 k7 (by push_cast; ring) (by push_cast; ring) (by push_cast; ring)
    (by push_cast; ring) (by push_cast; ring) (by push_cast; ring) a1
  have b1 := (log_fct_add k8 k9).trans (log_fct_mono (c := j1 + j2 + J + 1) (by omega))
  have b2 := (log_fct_add k4 k5).trans (log_fct_mono (c := j1 + j2 + J + 1) (by omega))
  have b3 := (log_fct_add k6 k7).trans (log_fct_mono (c := j1 + j2 + J + 1) (by omega))
  have hE := w.trans (mul_le_mul_of_nonneg_left (by linarith : _ ≤ 3 * Real.log (fct (j1 + j2 + J + 1))) (relErr_nonneg h0 h1 4))
  have hc := one_le_exp' h0 h1 (k := 4) (x := 3 * Real.log (fct (j1 + j2 + J + 1))) (by linarith [log_fct_nonneg (j1 + j2 + J + 1)])
  have g := grow_one_le h0 h1 1
  have u1 := (UpTo.exp hE).rd h0 h1 hc (ha.lib _ _ a2)
  have hc1 := one_le_mul_of_one_le_of_one_le hc g
  have u3 := (u1.sqrt hc1).rd h0 h1 hc1 (ha.op _ _ a3)
  rw [mul_assoc, grow_add h1] at u3
  exact u3

/-- One term of the sum with its exact value. -/
theorem cgTerm_upTo (h0 : 0 ≤ u) (h1 : u < 1) (ha : Accurate a u e) {j1 j2 m1 m2 J k : ℤ} (k0 : 0 ≤ k) (k1 : 0 ≤ j1 + j2 - J - k) (k2 : 0 ≤ j1 - m1 - k) (k3 : 0 ≤ j2 + m2 - k)
    (k4 : 0 ≤ J - j2 + m1 + k) (k5 : 0 ≤ J - j1 - m2 + k) {t : ℝ} (h : CgTerm a j1 j2 m1 m2 J k t) :
    UpTo (Real.exp (relErr u 4 * (1 * Real.log (fct (j1 + j2 + J + 1)))) * grow u 2)
      ((-1 : ℝ) ^ k / Real.exp (gammaln (k + 1) + gammaln (j1 + j2 - J - k + 1) + (gammaln (j1 - m1 - k + 1) + gammaln (j2 + m2 - k + 1)) +
        (gammaln (J - j2 + m1 + k + 1) + gammaln (J - j1 - m2 + k + 1)))) t := by
  obtain ⟨s, v, a1, a2, a3⟩ := h
  have w := gam6_within h0 h1 ha k (j1 + j2 - J - k) (j1 - m1 - k) (j2 + m2 - k) (J - j2 + m1 + k) (J - j1 - m2 + k) k0 k1 k2 k3 k4 k5 (by push_cast; ring) (by push_cast; ring)
    (by push_cast; ring) (by push_cast; ring) (by push_cast; ring) (by push_cast; ring) a1
  have b1 := log_fct_add k0 k1
  have b2 := log_fct_add k2 k3
  have b3 := log_fct_add k4 k5
  have b4 := log_fct_add (add_nonneg k0 k1) (add_nonneg k2 k3)
  have b5 := (log_fct_add (add_nonneg (add_nonneg k0 k1) (add_nonneg k2 k3)) (add_nonneg k4 k5)).trans (log_fct_mono (c := j1 + j2 + J + 1) (by omega))
  have hE := w.trans (mul_le_mul_of_nonneg_left (by linarith : _ ≤ 1 * Real.log (fct (j1 + j2 + J + 1))) (relErr_nonneg h0 h1 4))
  have hc := one_le_exp' h0 h1 (k := 4) (x := 1 * Real.log (fct (j1 + j2 + J + 1))) (by linarith [log_fct_nonneg (j1 + j2 + J + 1)])
  have g := grow_one_le h0 h1 1
  have u1 := (UpTo.exp hE).rd h0 h1 hc (ha.lib _ _ a2)
  have hc1 := one_le_mul_of_one_le_of_one_le hc g
  have u2 := ((UpTo.refl (x := (-1 : ℝ) ^ k) (le_refl (1 : ℝ))).div le_rfl hc1 u1).rd h0 h1 (by rwa [one_mul]) (ha.op _ _ a3)
  rw [one_mul, mul_assoc, grow_add h1] at u2
  exact u2

/-- Racah's sum without regard to sign, in the form of the program. -/
noncomputable def cgSize (j1 j2 m1 m2 J M : ℤ) : ℝ :=
  Real.sqrt ((2 * J + 1) * Real.exp (gammaln (J + j1 - j2 + 1) + gammaln (J - j1 + j2 + 1) + (gammaln (j1 + j2 - J + 1) - gammaln (j1 + j2 + J + 2)))) *
  Real.sqrt (Real.exp (gammaln (J + M + 1) + gammaln (J - M + 1) + (gammaln (j1 - m1 + 1) + gammaln (j1 + m1 + 1)) + (gammaln (j2 - m2 + 1) + gammaln (j2 + m2 + 1)))) *
  ∑ k ∈ Finset.Icc (max (max 0 (j2 - m1 - J)) (j1 + m2 - J)) (min (min (j1 + j2 - J) (j1 - m1)) (j2 + m2)),
    1 / Real.exp (gammaln (k + 1) + gammaln (j1 + j2 - J - k + 1) + (gammaln (j1 - m1 - k + 1) + gammaln (j2 + m2 - k + 1)) +
      (gammaln (J - j2 + m1 + k + 1) + gammaln (J - j1 - m2 + k + 1)))

theorem cgBody_within (h0 : 0 ≤ u) (h1 : u < 1) (ha : Accurate a u e) {j1 j2 m1 m2 J M : ℤ} (hok : CGOk j1 j2 m1 m2 J M) {delta : ℝ} (hd : |delta| = 1) {n : ℕ}
    (hn : (min (min (j1 + j2 - J) (j1 - m1)) (j2 + m2) + 1 - max (max 0 (j2 - m1 - J)) (j1 + m2 - J)).toNat ≤ n) {c : ℝ}
    (h : CgBody a delta j1 j2 m1 m2 J M c) :
    Within (Real.exp (relErr u 4 * (6 * Real.log (fct (j1 + j2 + J + 1)))) * grow u (9 + n)) (cgSize j1 j2 m1 m2 J M) (delta * cgBody j1 j2 m1 m2 J M) c := by
  obtain ⟨k1, k2, k3, k4, k5, k6, k7, k8, k9, k10⟩ := hok
  obtain ⟨fac1, fac2, ts, sumCG, p, f1, f2, f3, f4, f5, f6⟩ := h
  set B := Real.log (fct (j1 + j2 + J + 1)) with hB
  have hB0 : 0 ≤ B := log_fct_nonneg _
  have c1 := one_le_exp' h0 h1 (k := 4) (x := 2 * B) (by linarith)
  have c2 := one_le_exp' h0 h1 (k := 4) (x := 3 * B) (by linarith)
  have c3 := one_le_exp' h0 h1 (k := 4) (x := 1 * B) (by linarith)
  have g1 := grow_one_le h0 h1 1
  have g2 := grow_one_le h0 h1 2
  have g3 := grow_one_le h0 h1 3
  have U1 := cgFac1_upTo h0 h1 ha k1 k2 k3 f1
  have U2 := cgFac2_upTo h0 h1 ha k4 k5 k6 k7 k8 k9 k1 k2 k3 f2
  have d1 := one_le_mul_of_one_le_of_one_le c1 g3
  have d2 := one_le_mul_of_one_le_of_one_le c2 g2
  have d3 := one_le_mul_of_one_le_of_one_le c3 g2
  have U3 := (((UpTo.refl (x := delta) (le_refl (1 : ℝ))).mul le_rfl d1 U1).mul (by rwa [one_mul]) d2 U2).rd h0 h1
    (by rw [one_mul]; exact one_le_mul_of_one_le_of_one_le d1 d2) (ha.op _ _ f5)
  rw [one_mul] at U3
  have d12 := one_le_mul_of_one_le_of_one_le (one_le_mul_of_one_le_of_one_le d1 d2) g1
  have W1 := U3.within d12
  have Ts : List.Forall₂ (fun (k : ℤ) t => Within (Real.exp (relErr u 4 * (1 * B)) * grow u 2)
      (1 / Real.exp (gammaln (k + 1) + gammaln (j1 + j2 - J - k + 1) + (gammaln (j1 - m1 - k + 1) + gammaln (j2 + m2 - k + 1)) +
        (gammaln (J - j2 + m1 + k + 1) + gammaln (J - j1 - m2 + k + 1))))
      ((-1 : ℝ) ^ k / Real.exp (gammaln (k + 1) + gammaln (j1 + j2 - J - k + 1) + (gammaln (j1 - m1 - k + 1) + gammaln (j2 + m2 - k + 1)) +
        (gammaln (J - j2 + m1 + k + 1) + gammaln (J - j1 - m2 + k + 1)))) t)
      (zrange (max (max 0 (j2 - m1 - J)) (j1 + m2 - J)) (min (min (j1 + j2 - J) (j1 - m1)) (j2 + m2))) ts := by
    rw [List.forall₂_iff_get] at f3 ⊢
    refine ⟨f3.1, fun i hi hi' => ?_⟩
    have hk : ∃ k, (zrange (max (max 0 (j2 - m1 - J)) (j1 + m2 - J)) (min (min (j1 + j2 - J) (j1 - m1)) (j2 + m2))).get ⟨i, hi⟩ = k ∧
        max (max 0 (j2 - m1 - J)) (j1 + m2 - J) ≤ k ∧ k ≤ min (min (j1 + j2 - J) (j1 - m1)) (j2 + m2) := by
      refine ⟨_, rfl, ?_⟩
      have hlen : i < (min (min (j1 + j2 - J) (j1 - m1)) (j2 + m2) + 1 - max (max 0 (j2 - m1 - J)) (j1 + m2 - J)).toNat := by
        have := hi
        rwa [zrange, List.length_map, List.length_range] at this
      simp only [zrange, List.get_eq_getElem, List.getElem_map, List.getElem_range]
      omega
    obtain ⟨k, hke, hk1, hk2⟩ := hk
    have := f3.2 i hi hi'
    rw [hke] at this ⊢
    have U := (cgTerm_upTo h0 h1 ha (by omega) (by omega) (by omega) (by omega) (by omega) (by omega) this).within d3
    rw [abs_div, abs_zpow, abs_neg, abs_one, one_zpow, abs_of_pos (Real.exp_pos _)] at U
    exact U
  have W2 := adds_within h0 h1 ha f4 (c := Real.exp (relErr u 4 * (1 * B)) * grow u 2) (w0 := 0) (x0 := 0) d3 (Within.refl (by simp) d3) Ts
  rw [zero_add, zero_add] at W2
  have W3 := Within.op h0 h1 (W1.mul W2 d12) (ha.op _ _ f6)
  have len : (zrange (max (max 0 (j2 - m1 - J)) (j1 + m2 - J)) (min (min (j1 + j2 - J) (j1 - m1)) (j2 + m2))).length ≤ n := by
    rw [zrange, List.length_map, List.length_range]; exact hn
  rw [zrange_sum, zrange_sum] at W3
  have e1 : |delta * Real.sqrt ((2 * J + 1) * Real.exp (gammaln (J + j1 - j2 + 1) + gammaln (J - j1 + j2 + 1) + (gammaln (j1 + j2 - J + 1) - gammaln (j1 + j2 + J + 2)))) *
      Real.sqrt (Real.exp (gammaln (J + M + 1) + gammaln (J - M + 1) + (gammaln (j1 - m1 + 1) + gammaln (j1 + m1 + 1)) + (gammaln (j2 - m2 + 1) + gammaln (j2 + m2 + 1))))| =
      Real.sqrt ((2 * J + 1) * Real.exp (gammaln (J + j1 - j2 + 1) + gammaln (J - j1 + j2 + 1) + (gammaln (j1 + j2 - J + 1) - gammaln (j1 + j2 + J + 2)))) *
      Real.sqrt (Real.exp (gammaln (J + M + 1) + gammaln (J - M + 1) + (gammaln (j1 - m1 + 1) + gammaln (j1 + m1 + 1)) + (gammaln (j2 - m2 + 1) + gammaln (j2 + m2 + 1)))) := by
    rw [abs_mul, abs_mul, hd, one_mul, abs_of_nonneg (Real.sqrt_nonneg _), abs_of_nonneg (Real.sqrt_nonneg _)]
  rw [e1] at W3
  have e2 : delta * cgBody j1 j2 m1 m2 J M = delta * Real.sqrt ((2 * J + 1) * Real.exp (gammaln (J + j1 - j2 + 1) + gammaln (J - j1 + j2 + 1) + (gammaln (j1 + j2 - J + 1) - gammaln (j1 + j2 + J + 2)))) *
      Real.sqrt (Real.exp (gammaln (J + M + 1) + gammaln (J - M + 1) + (gammaln (j1 - m1 + 1) + gammaln (j1 + m1 + 1)) + (gammaln (j2 - m2 + 1) + gammaln (j2 + m2 + 1)))) *
      ∑ k ∈ Finset.Icc (max (max 0 (j2 - m1 - J)) (j1 + m2 - J)) (min (min (j1 + j2 - J) (j1 - m1)) (j2 + m2)),
        (-1 : ℝ) ^ k / Real.exp (gammaln (k + 1) + gammaln (j1 + j2 - J - k + 1) + (gammaln (j1 - m1 - k + 1) + gammaln (j2 + m2 - k + 1)) +
          (gammaln (J - j2 + m1 + k + 1) + gammaln (J - j1 - m2 + k + 1))) := by
    rw [cgBody]; ring
  rw [e2, cgSize]
  refine W3.mono ?_ ?_ le_rfl
  · exact one_le_mul_of_one_le_of_one_le (one_le_mul_of_one_le_of_one_le d12 (one_le_mul_of_one_le_of_one_le d3 (grow_one_le h0 h1 _))) g1
  · have ex : Real.exp (relErr u 4 * (6 * B)) = Real.exp (relErr u 4 * (2 * B)) * Real.exp (relErr u 4 * (3 * B)) * Real.exp (relErr u 4 * (1 * B)) := by
      rw [← Real.exp_add, ← Real.exp_add]; congr 1; ring
    have gl := grow_mono h0 h1 len
    have eg : grow u (9 + n) = grow u 3 * grow u 2 * grow u 1 * grow u 2 * grow u n * grow u 1 := by
      rw [grow_add h1, grow_add h1, grow_add h1, grow_add h1, grow_add h1]; congr 1; omega
    rw [ex, eg]
    have gn := grow_one_le h0 h1 n
    calc _ = Real.exp (relErr u 4 * (2 * B)) * Real.exp (relErr u 4 * (3 * B)) * Real.exp (relErr u 4 * (1 * B)) * (grow u 3 * grow u 2 * grow u 1 * grow u 2 * grow u 1) *
          grow u (zrange (max (max 0 (j2 - m1 - J)) (j1 + m2 - J)) (min (min (j1 + j2 - J) (j1 - m1)) (j2 + m2))).length := by ring
      _ ≤ Real.exp (relErr u 4 * (2 * B)) * Real.exp (relErr u 4 * (3 * B)) * Real.exp (relErr u 4 * (1 * B)) * (grow u 3 * grow u 2 * grow u 1 * grow u 2 * grow u 1) * grow u n := by gcongr
      _ = _ := by ring

/-- With at most one term there is no cancellation. -/
theorem cgSize_single {j1 j2 m1 m2 J M : ℤ} (h : min (min (j1 + j2 - J) (j1 - m1)) (j2 + m2) ≤ max (max 0 (j2 - m1 - J)) (j1 + m2 - J)) :
    cgSize j1 j2 m1 m2 J M = |cgBody j1 j2 m1 m2 J M| := by
  rw [cgSize, cgBody]
  rw [abs_mul, abs_mul, abs_of_nonneg (Real.sqrt_nonneg _), abs_of_nonneg (Real.sqrt_nonneg _)]
  congr 1
  generalize max (max 0 (j2 - m1 - J)) (j1 + m2 - J) = x at *
  generalize min (min (j1 + j2 - J) (j1 - m1)) (j2 + m2) = y at *
  rcases h.lt_or_eq with h | rfl
  · rw [Finset.Icc_eq_empty (by omega)]; simp
  · rw [Finset.Icc_self, Finset.sum_singleton, Finset.sum_singleton, abs_div, abs_zpow, abs_neg, abs_one, one_zpow, abs_of_pos (Real.exp_pos _)]

theorem cgSize_eq {j1 j2 m1 m2 J M : ℤ} (h : CGOk j1 j2 m1 m2 J M) : cgSize j1 j2 m1 m2 J M = racahAbs j1 j2 m1 m2 J M := by
  obtain ⟨h1, h2, h3, h4, h5, h6, h7, h8, h9, h10⟩ := h
  rw [cgSize, racahAbs]
  congr 1
  · congr 1
    · congr 1
      rw [Real.exp_add, Real.exp_add, Real.exp_sub, exp_gammaln _ (J + j1 - j2) h1 (by push_cast; ring), exp_gammaln _ (J - j1 + j2) h2 (by push_cast; ring),
        exp_gammaln _ (j1 + j2 - J) h3 (by push_cast; ring), exp_gammaln _ (j1 + j2 + J + 1) (by omega) (by push_cast; ring)]
      ring
    · congr 1
      rw [Real.exp_add, Real.exp_add, Real.exp_add, Real.exp_add, Real.exp_add, exp_gammaln _ (J + M) h8 (by push_cast; ring),
        exp_gammaln _ (J - M) h9 (by push_cast; ring), exp_gammaln _ (j1 - m1) h4 (by push_cast; ring), exp_gammaln _ (j1 + m1) h5 (by push_cast; ring),
        exp_gammaln _ (j2 - m2) h6 (by push_cast; ring), exp_gammaln _ (j2 + m2) h7 (by push_cast; ring)]
  · apply Finset.sum_subset_zero_on_sdiff
    · intro k hk
      rw [Finset.mem_Icc] at *
      omega
    · intro k hk
      rw [Finset.mem_sdiff, Finset.mem_Icc, Finset.mem_Icc] at hk
      have : j1 - m1 - k < 0 ∨ j2 + m2 - k < 0 ∨ J - j2 + m1 + k < 0 ∨ J - j1 - m2 + k < 0 := by
        omega
      rcases this with h | h | h | h
      · rw [invFct, invFct, invFct, if_pos h]; ring
      · rw [invFct, invFct, invFct, invFct, if_pos h]; ring
      · rw [show invFct (J - j2 + m1 + k) = 0 by rw [invFct, if_pos h]]; ring
      · rw [show invFct (J - j1 - m2 + k) = 0 by rw [invFct, if_pos h]]; ring
    · intro k hk
      rw [Finset.mem_Icc] at hk
      rw [Real.exp_add, Real.exp_add, Real.exp_add, Real.exp_add, Real.exp_add, exp_gammaln _ k (by omega) (by push_cast; ring),
        exp_gammaln _ (j1 + j2 - J - k) (by omega) (by push_cast; ring), exp_gammaln _ (j1 - m1 - k) (by omega) (by push_cast; ring),
        exp_gammaln _ (j2 + m2 - k) (by omega) (by push_cast; ring), exp_gammaln _ (J - j2 + m1 + k) (by omega) (by push_cast; ring),
        exp_gammaln _ (J - j1 - m2 + k) (by omega) (by push_cast; ring)]
      simp only [invFct]
      rw [if_neg (by omega), if_neg (by omega), if_neg (by omega), if_neg (by omega), if_neg (by omega), if_neg (by omega)]
      have := fct_ne_zero
      field_simp

theorem racahAbs_neg (j1 j2 m1 m2 J M : ℤ) : racahAbs j1 j2 (-m1) (-m2) J (-M) = racahAbs j1 j2 m1 m2 J M := by
  have hsum : (∑ k ∈ Finset.Icc 0 (j1 + j2 - J), (invFct k * invFct (j1 + j2 - J - k)
      * invFct (j1 - -m1 - k) * invFct (j2 + -m2 - k)
      * invFct (J - j2 + -m1 + k) * invFct (J - j1 - -m2 + k))) =
      ∑ k ∈ Finset.Icc 0 (j1 + j2 - J), (invFct k * invFct (j1 + j2 - J - k)
      * invFct (j1 - m1 - k) * invFct (j2 + m2 - k)
      * invFct (J - j2 + m1 + k) * invFct (J - j1 - m2 + k)) := by
    refine Finset.sum_bij' (fun k _ => j1 + j2 - J - k) (fun k _ => j1 + j2 - J - k) ?_ ?_ ?_ ?_ ?_
    · intro k hk; rw [Finset.mem_Icc] at *; omega
    · intro k hk; rw [Finset.mem_Icc] at *; omega
    · intro k _; ring
    · intro k _; ring
    · intro k _
      rw [show j1 + j2 - J - (j1 + j2 - J - k) = k by ring,
        show j1 - m1 - (j1 + j2 - J - k) = J - j2 + -m1 + k by ring,
        show j2 + m2 - (j1 + j2 - J - k) = J - j1 - -m2 + k by ring,
        show J - j2 + m1 + (j1 + j2 - J - k) = j1 - -m1 - k by ring,
        show J - j1 - m2 + (j1 + j2 - J - k) = j2 + -m2 - k by ring]
      ring
  rw [racahAbs, hsum, racahAbs]
  rw [show J + -M = J - M by ring, show J - -M = J + M by ring, show j1 - -m1 = j1 + m1 by ring,
    show j1 + -m1 = j1 - m1 by ring, show j2 - -m2 = j2 + m2 by ring,
    show j2 + -m2 = j2 - m2 by ring]
  rw [show fct (J - M) * fct (J + M) * (fct (j1 + m1) * fct (j1 - m1)) *
      (fct (j2 + m2) * fct (j2 - m2)) = fct (J + M) * fct (J - M) * (fct (j1 - m1) * fct (j1 + m1)) *
      (fct (j2 - m2) * fct (j2 + m2)) by ring]

/-- The cases of `cgCoeff`: zero, or the body with a sign. -/
theorem cgCoeff_cases {j1 j2 m1 m2 J M : ℤ} {c : ℝ} (ha : Accurate a u e) (h : Flt.cgCoeff a j1 j2 m1 m2 J M c) :
    (¬ CGValid j1 j2 m1 m2 J M ∧ c = 0 ∧ Newt.cgCoeff j1 j2 m1 m2 J M = 0) ∨
    (CGValid j1 j2 m1 m2 J M ∧ ∃ (delta : ℝ) (m1' m2' M' : ℤ), CGOk j1 j2 m1' m2' J M' ∧ ((m1' = m1 ∧ m2' = m2 ∧ M' = M) ∨ (m1' = -m1 ∧ m2' = -m2 ∧ M' = -M)) ∧
      |delta| = 1 ∧ CgBody a delta j1 j2 m1' m2' J M' c ∧ Newt.cgCoeff j1 j2 m1 m2 J M = delta * cgBody j1 j2 m1' m2' J M') := by
  have zero : ∀ x y : ℝ, x = 0 → a.op x y → y = 0 := fun x y hx hy => by
    have := ha.op _ _ hy
    rw [hx, abs_zero, mul_zero, sub_zero] at this
    exact abs_nonpos_iff.1 this
  by_cases hv : CGValid j1 j2 m1 m2 J M
  · right
    refine ⟨hv, ?_⟩
    have hok := cgok_of_valid hv
    obtain ⟨v1, v2, v3, v4, v5, v6⟩ := hv
    rw [Flt.cgCoeff, if_neg (by omega), if_neg (by omega)] at h
    rw [Newt.cgCoeff, if_neg (by omega), if_neg (by omega)]
    simp only []
    by_cases hM : M < 0
    · rw [if_pos hM, if_pos v6, one_mul] at h
      rw [if_pos hM, if_pos v6, one_mul]
      exact ⟨_, -m1, -m2, -M, cgok_neg hok, Or.inr ⟨rfl, rfl, rfl⟩, by rw [abs_zpow, abs_neg, abs_one, one_zpow], h, rfl⟩
    · rw [if_neg hM, if_pos v6] at h
      rw [if_neg hM, if_pos v6]
      exact ⟨_, m1, m2, M, hok, Or.inl ⟨rfl, rfl, rfl⟩, abs_one, h, rfl⟩
  · left
    refine ⟨hv, ?_, cgCoeff_invalid hv⟩
    rw [Flt.cgCoeff] at h
    by_cases c1 : j1 < |m1| ∨ j2 < |m2| ∨ J < |M|
    · rwa [if_pos c1] at h
    rw [if_neg c1] at h
    by_cases c2 : J > j1 + j2 ∨ J < |j1 - j2|
    · rwa [if_pos c2] at h
    rw [if_neg c2] at h
    have hne : M ≠ m1 + m2 := fun hM => hv ⟨by omega, by omega, by omega, by omega, by omega, hM⟩
    rw [if_neg hne, zero_mul] at h
    have body : ∀ m1 m2 M : ℤ, CgBody a 0 j1 j2 m1 m2 J M c → c = 0 := by
      rintro m1 m2 M ⟨fac1, fac2, ts, sumCG, p, f1, f2, f3, f4, f5, f6⟩
      have := zero _ _ (by ring) f5
      exact zero _ _ (by rw [this, zero_mul]) f6
    by_cases hM : M < 0
    · rw [if_pos hM] at h; exact body _ _ _ h
    · rw [if_neg hM] at h; exact body _ _ _ h

/-- `cgCoeff`, measured against Racah's sum without signs. -/
theorem cg_within (h0 : 0 ≤ u) (h1 : u < 1) (ha : Accurate a u e) {j1 j2 m1 m2 J M : ℤ} {c : ℝ} (h : Flt.cgCoeff a j1 j2 m1 m2 J M c) :
    |c - Newt.cgCoeff j1 j2 m1 m2 J M| ≤ (Real.exp (relErr u 4 * (6 * Real.log (fct (j1 + j2 + J + 1)))) * grow u (9 + (j1 + j2 - J + 1).toNat) - 1) *
      racahAbs j1 j2 m1 m2 J M := by
  rcases cgCoeff_cases ha h with ⟨-, rfl, h2⟩ | ⟨-, delta, m1', m2', M', hok, hm, hd, hb, h2⟩
  · rw [h2, sub_self, abs_zero]
    have hB := log_fct_nonneg (j1 + j2 + J + 1)
    have c1 := one_le_mul_of_one_le_of_one_le (one_le_exp' h0 h1 (k := 4) (x := 6 * Real.log (fct (j1 + j2 + J + 1))) (by linarith)) (grow_one_le h0 h1 (9 + (j1 + j2 - J + 1).toNat))
    refine mul_nonneg (by linarith) ?_
    rw [racahAbs]
    refine mul_nonneg (by positivity) (Finset.sum_nonneg fun k _ => ?_)
    have : ∀ n : ℤ, 0 ≤ invFct n := fun n => by
      rw [invFct]; split_ifs
      · exact le_rfl
      · exact div_nonneg zero_le_one (fct_pos n).le
    have := this k
    have := ‹∀ n : ℤ, 0 ≤ invFct n›
    exact mul_nonneg (mul_nonneg (mul_nonneg (mul_nonneg (mul_nonneg (this _) (this _)) (this _)) (this _)) (this _)) (this _)
  · have W := (cgBody_within h0 h1 ha hok hd (n := (j1 + j2 - J + 1).toNat) (by omega) hb).2
    rw [h2]
    rw [Real.norm_eq_abs] at W
    have e1 : cgSize j1 j2 m1' m2' J M' = racahAbs j1 j2 m1 m2 J M := by
      rw [cgSize_eq hok]
      rcases hm with ⟨rfl, rfl, rfl⟩ | ⟨rfl, rfl, rfl⟩
      · rfl
      · exact racahAbs_neg _ _ _ _ _ _
    rwa [e1] at W

/-- In the coefficients that translations use there is one term only, hence no cancellation. -/
theorem cg_stretched_within (h0 : 0 ≤ u) (h1 : u < 1) (ha : Accurate a u e) {j1 j2 m1 m2 J M : ℤ} (hJ : J = j1 + j2 ∨ J = j2 - j1) {N : ℤ} (hN : j1 + j2 + J + 1 ≤ N) {c : ℝ}
    (h : Flt.cgCoeff a j1 j2 m1 m2 J M c) :
    Within (Real.exp (relErr u 4 * (6 * Real.log (fct N))) * grow u 10) |Newt.cgCoeff j1 j2 m1 m2 J M| (Newt.cgCoeff j1 j2 m1 m2 J M) c := by
  have hB := log_fct_nonneg (j1 + j2 + J + 1)
  have hm := log_fct_mono hN
  have r4 := relErr_nonneg h0 h1 4
  have c1 := one_le_mul_of_one_le_of_one_le (one_le_exp' h0 h1 (k := 4) (x := 6 * Real.log (fct (j1 + j2 + J + 1))) (by linarith)) (grow_one_le h0 h1 10)
  have c2 : Real.exp (relErr u 4 * (6 * Real.log (fct (j1 + j2 + J + 1)))) * grow u 10 ≤ Real.exp (relErr u 4 * (6 * Real.log (fct N))) * grow u 10 := by
    refine mul_le_mul_of_nonneg_right (Real.exp_le_exp.2 (mul_le_mul_of_nonneg_left (by linarith) r4)) (by linarith [grow_one_le h0 h1 10])
  rcases cgCoeff_cases ha h with ⟨-, rfl, h2⟩ | ⟨-, delta, m1', m2', M', hok, hmm, hd, hb, h2⟩
  · rw [h2]; exact Within.refl (by simp) (c1.trans c2)
  · have hle : min (min (j1 + j2 - J) (j1 - m1')) (j2 + m2') ≤ max (max 0 (j2 - m1' - J)) (j1 + m2' - J) := by
      obtain ⟨v1, v2, v3, v4, v5, v6, v7, v8, v9, v10⟩ := hok
      rcases hJ with rfl | rfl <;> omega
    have W := cgBody_within h0 h1 ha hok hd (n := 1) (by omega) hb
    have e1 : cgSize j1 j2 m1' m2' J M' = |Newt.cgCoeff j1 j2 m1 m2 J M| := by
      rw [h2, cgSize_single hle, abs_mul, hd, one_mul]
    rw [e1, ← h2] at W
    exact W.mono c1 c2 le_rfl

end Newt
