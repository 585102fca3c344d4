import Verif.Model.Extern
import Verif.Proofs.Solid
import Mathlib.Algebra.Polynomial.Taylor

/-! # The bridge between scipy's spherical harmonics and the polynomial solid harmonics -/

namespace Newt

open Polynomial

/-- real profile polynomial `-s/2 X^2 + c X + s/2` -/
noncomputable def vPoly (c s : ℝ) : ℝ[X] := C (-s / 2) * X ^ 2 + C c * X + C (s / 2)

theorem eval_iter_deriv (f : ℝ[X]) (k : ℕ) (c : ℝ) :
    (derivative^[k] f).eval c = k.factorial * (taylor c f).coeff k := by
  rw [taylor_coeff, ← factorial_smul_hasseDeriv]
  simp

theorem taylor_base (c s : ℝ) (h : c ^ 2 + s ^ 2 = 1) (n : ℕ) :
    taylor c ((X ^ 2 - 1) ^ n : ℝ[X]) = (X ^ 2 + C (2 * c) * X - C (s ^ 2)) ^ n := by
  rw [taylor_apply, pow_comp]
  congr 1
  rw [show s ^ 2 = 1 - c ^ 2 by linarith]
  simp only [sub_comp, pow_comp, X_comp, one_comp, C_sub, C_mul, C_pow, C_ofNat, C_1]
  ring

theorem coeff_scale (c s : ℝ) (n k : ℕ) :
    (-s) ^ k * ((X ^ 2 + C (2 * c) * X - C (s ^ 2)) ^ n : ℝ[X]).coeff k =
      (-2 * s) ^ n * (vPoly c s ^ n).coeff k := by
  have h : ((X ^ 2 + C (2 * c) * X - C (s ^ 2)) ^ n : ℝ[X]).comp (C (-s) * X) =
      C ((-2 * s) ^ n) * vPoly c s ^ n := by
    rw [pow_comp, C_pow (a := -2 * s), ← mul_pow]
    congr 1
    simp only [vPoly, sub_comp, add_comp, mul_comp, pow_comp, X_comp, C_comp]
    have e : (-s / 2 : ℝ) = -(s / 2) := by ring
    have e2 : s = 2 * (s / 2) := by ring
    rw [e]
    generalize s / 2 = t at *
    subst e2
    simp only [C_mul, C_neg, C_pow, C_ofNat]
    ring
  have h2 := congrArg (fun p => p.coeff k) h
  simp only [comp_C_mul_X_coeff, coeff_C_mul] at h2
  rw [← h2, mul_comm]

theorem coeff_key (c s : ℝ) (l m : ℕ) (hm : m ≤ l) :
    s ^ m * ((X ^ 2 + C (2 * c) * X - C (s ^ 2)) ^ l : ℝ[X]).coeff (l + m) =
      (-1) ^ m * 2 ^ l * (vPoly c s ^ l).coeff (l + m) := by
  by_cases hs : s = 0
  · subst hs
    have e1 : ((X ^ 2 + C (2 * c) * X - C (0 ^ 2)) ^ l : ℝ[X]) = X ^ l * (X + C (2 * c)) ^ l := by
      rw [← mul_pow]; congr 1; simp; ring
    have e2 : vPoly c 0 ^ l = C (c ^ l) * X ^ l := by
      rw [vPoly, C_pow, ← mul_pow]; congr 1; simp
    rw [e1, e2, add_comm l m, coeff_X_pow_mul, coeff_C_mul_X_pow]
    by_cases h0 : m = 0
    · subst h0
      simp only [pow_zero, zero_add, if_true, one_mul]
      rw [coeff_zero_eq_eval_zero]
      simp [mul_pow]
    · simp [h0]
  · have h := coeff_scale c s l (l + m)
    have hne : s ^ l ≠ 0 := pow_ne_zero _ hs
    have e : ((-1 : ℝ)) ^ (l + m) * (-1) ^ l = (-1) ^ m := by
      rw [← pow_add, show l + m + l = m + 2 * l by ring, pow_add, pow_mul]; simp
    have e3 : (-s) ^ (l + m) = (-1) ^ (l + m) * (s ^ l * s ^ m) := by
      rw [neg_pow s, pow_add s]
    have e4 : (-2 * s) ^ l = (-1) ^ l * 2 ^ l * s ^ l := by
      rw [mul_pow, neg_pow 2]
    have e5 : ((-1 : ℝ)) ^ l * (-1) ^ l = 1 := by rw [← mul_pow]; simp
    rw [e3, e4] at h
    apply mul_left_cancel₀ hne
    have e6 : ((-1 : ℝ)) ^ (l + m) * (-1) ^ (l + m) = 1 := by rw [← mul_pow]; simp
    linear_combination (-1) ^ (l + m) * h +
      2 ^ l * s ^ l * (vPoly c s ^ l).coeff (l + m) * e - 
      (s ^ l * s ^ m * ((X ^ 2 + C (2 * c) * X - C (s ^ 2)) ^ l : ℝ[X]).coeff (l + m)) * e6

/-- The associated Legendre function as a polynomial coefficient. -/
theorem lpmv_eq (c s : ℝ) (hs : 0 ≤ s) (h : c ^ 2 + s ^ 2 = 1) (m l : ℕ) (hm : m ≤ l) :
    lpmv m l c = (l + m).factorial / l.factorial * (vPoly c s ^ l).coeff (l + m) := by
  have hsq : Real.sqrt (1 - c ^ 2) = s := by
    rw [show 1 - c ^ 2 = s ^ 2 by linarith, Real.sqrt_sq hs]
  have hf : ((l.factorial : ℝ)) ≠ 0 := by exact_mod_cast l.factorial_ne_zero
  rw [lpmv, hsq, legendreP, iterate_derivative_C_mul, eval_C_mul, ← Function.iterate_add_apply,
    eval_iter_deriv, taylor_base c s h]
  have k := coeff_key c s l m hm
  rw [add_comm m l]
  have e5 : ((-1 : ℝ)) ^ m * (-1) ^ m = 1 := by rw [← mul_pow]; simp
  field_simp
  linear_combination (-1) ^ m * k + 2 ^ l * (vPoly c s ^ l).coeff (l + m) * e5

/-- Cartesian coordinates of spherical ones. -/
noncomputable def sphericalV (r theta phi : ℝ) : V3 :=
  ![r * Real.sin theta * Real.cos phi, r * Real.sin theta * Real.sin phi, r * Real.cos theta]

theorem uPoly_spherical (r theta phi : ℝ) (l k : ℕ) :
    (uPoly (sphericalV r theta phi) ^ l).coeff k * Complex.exp (Complex.I * phi) ^ k =
      (r : ℂ) ^ l * Complex.exp (Complex.I * phi) ^ l *
        ((vPoly (Real.cos theta) (Real.sin theta) ^ l).coeff k : ℝ) := by
  set e := Complex.exp (Complex.I * phi) with he
  have he1 : e = Complex.cos phi + Complex.sin phi * Complex.I := by
    rw [he, mul_comm, Complex.exp_mul_I]
  have he2 : e * ((Complex.cos phi : ℂ) - Complex.sin phi * Complex.I) = 1 := by
    rw [he1]
    have h2 := Complex.sin_sq_add_cos_sq (phi : ℂ)
    linear_combination h2 - Complex.sin phi ^ 2 * Complex.I_sq
  have h : (uPoly (sphericalV r theta phi) ^ l).comp (C e * X) =
      C ((r : ℂ) ^ l * e ^ l) *
        (vPoly (Real.cos theta) (Real.sin theta) ^ l).map Complex.ofRealHom := by
    rw [pow_comp, C_mul, C_pow, C_pow, ← mul_pow, Polynomial.map_pow, ← mul_pow]
    congr 1
    simp only [uPoly, sphericalV, vPoly, add_comp, mul_comp, pow_comp, X_comp, C_comp,
      Polynomial.map_add, Polynomial.map_mul, Polynomial.map_pow, map_X, map_C,
      Matrix.cons_val_zero, Matrix.cons_val_one, Matrix.cons_val, Complex.ofRealHom_eq_coe]
    rw [mul_pow, ← C_pow, mul_add, mul_add, ← mul_assoc, ← mul_assoc, ← mul_assoc, ← mul_assoc,
      ← C_mul, ← C_mul, ← C_mul, ← C_mul, ← C_mul, ← C_mul]
    congr 1
    · congr 1
      · congr 2
        push_cast
        linear_combination (-(r : ℂ) * Complex.sin theta / 2 * e) * he2
      · congr 2
        push_cast
        ring
    · congr 1
      push_cast
      rw [he1]
      ring
  have h2 := congrArg (fun p => p.coeff k) h
  simp only [comp_C_mul_X_coeff, coeff_C_mul, coeff_map, Complex.ofRealHom_eq_coe] at h2
  exact h2

theorem exp_mul_nat (phi : ℝ) (k : ℕ) :
    Complex.exp (Complex.I * k * phi) = Complex.exp (Complex.I * phi) ^ k := by
  rw [← Complex.exp_nat_mul]; congr 1; ring

theorem conj_exp_I (phi : ℝ) : (starRingEnd ℂ) (Complex.exp (Complex.I * phi)) =
    (Complex.exp (Complex.I * phi))⁻¹ := by
  rw [← Complex.exp_conj, ← Complex.exp_neg]; simp

/-- Non-negative orders. -/
theorem sphHarm_nat (r theta phi : ℝ) (hs : 0 ≤ Real.sin theta) (l m : ℕ) (hm : m ≤ l) :
    (r : ℂ) ^ l * (starRingEnd ℂ) (sphHarm m l phi theta) =
      (Nlm l m : ℂ) * Rsol l m (sphericalV r theta phi) := by
  have hl := lpmv_eq (Real.cos theta) (Real.sin theta) hs
    (by rw [add_comm]; exact Real.sin_sq_add_cos_sq theta) m l hm
  have hu := uPoly_spherical r theta phi l (l + m)
  set e := Complex.exp (Complex.I * phi) with he
  have hene : e ≠ 0 := Complex.exp_ne_zero _
  set co := (vPoly (Real.cos theta) (Real.sin theta) ^ l).coeff (l + m) with hco
  have hR : Rsol l m (sphericalV r theta phi) = (r : ℂ) ^ l * (e⁻¹) ^ m * co / l.factorial := by
    rw [Rsol, show (l : ℤ) + m = ((l + m : ℕ) : ℤ) by push_cast; ring, zc_nat]
    congr 1
    rw [pow_add] at hu
    have : e ^ l ≠ 0 := pow_ne_zero _ hene
    have h2 : e ^ m ≠ 0 := pow_ne_zero _ hene
    apply mul_right_cancel₀ (mul_ne_zero this h2)
    rw [hu, inv_pow]
    field_simp
  have hf : ((l.factorial : ℝ)) ≠ 0 := by exact_mod_cast l.factorial_ne_zero
  have hN : Real.sqrt ((2 * l + 1) / (4 * Real.pi) * ((l - m).factorial / (l + m).factorial))
      * (l + m).factorial = Nlm l m := by
    have hp : (0 : ℝ) < (l + m).factorial := by exact_mod_cast (l + m).factorial_pos
    rw [Nlm, show ((l : ℤ) + m).toNat = l + m by omega, show ((l : ℤ) - m).toNat = l - m by omega]
    generalize hg : (((l + m).factorial : ℕ) : ℝ) = g at hp
    have e : g = Real.sqrt (g ^ 2) := (Real.sqrt_sq hp.le).symm
    conv_lhs => rhs; rw [e]
    rw [← Real.sqrt_mul (by positivity)]
    congr 1
    field_simp
  rw [hR, ← hN]
  simp only [sphHarm, Int.natAbs_natCast, Int.natCast_nonneg, if_true, map_mul, Complex.conj_ofReal,
    exp_mul_nat, map_pow, conj_exp_I, hl]
  rw [← he]
  push_cast
  field_simp

theorem Nlm_neg (l : ℕ) (m : ℤ) : Nlm l (-m) = Nlm l m := by
  unfold Nlm
  congr 2
  rw [mul_comm]
  congr 3
  ring_nf

/-- scipy's `r^l conj(Y_lm)` in Cartesian form, all orders, every point of space in spherical
coordinates with `sin theta >= 0`. -/
theorem sphHarm_solid (r theta phi : ℝ) (hs : 0 ≤ Real.sin theta) (l : ℕ) (m : ℤ)
    (hm : m.natAbs ≤ l) :
    (r : ℂ) ^ l * (starRingEnd ℂ) (sphHarm m l phi theta) =
      (Nlm l m : ℂ) * Rsol l m (sphericalV r theta phi) := by
  rcases Int.natAbs_eq m with h | h
  · rw [h]; exact sphHarm_nat r theta phi hs l m.natAbs (by omega)
  · have hk := sphHarm_nat r theta phi hs l m.natAbs (by omega)
    by_cases h0 : m.natAbs = 0
    · rw [h0] at h; rw [show m = ((0 : ℕ) : ℤ) by simpa using h]
      exact sphHarm_nat r theta phi hs l 0 (by omega)
    rw [h, Nlm_neg, Rsol_neg_m]
    have hneg : ¬ (0 ≤ -((m.natAbs : ℕ) : ℤ)) := by omega
    have e : sphHarm (-((m.natAbs : ℕ) : ℤ)) l phi theta =
        (-1) ^ m.natAbs * (starRingEnd ℂ) (sphHarm ((m.natAbs : ℕ) : ℤ) l phi theta) := by
      simp only [sphHarm, if_neg hneg, Int.natAbs_neg, Int.natAbs_natCast, Int.natCast_nonneg,
        if_true]
    rw [e]
    have hc := congrArg (starRingEnd ℂ) hk
    simp only [map_mul, map_pow, Complex.conj_ofReal, Complex.conj_conj, map_neg, map_one] at hc ⊢
    rw [zpow_natCast]
    linear_combination (-1) ^ m.natAbs * hc

end Newt
