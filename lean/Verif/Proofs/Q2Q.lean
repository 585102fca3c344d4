import Verif.Props.ForceConv
import Verif.Props.TransRecurs

/-!
# Taylor expansion of the irregular solid harmonics
-/

namespace Newt

open Polynomial Spec

theorem zc_deriv2 (p : ℂ[X]) (k : ℤ) :
    zc (derivative (derivative p)) k = (k + 2) * (k + 1) * zc p (k + 2) := by
  have h1 := zc_X_deriv (derivative p) (k + 1)
  rw [zc_X_mul', add_sub_cancel_right] at h1
  have h2 := zc_X_deriv p (k + 2)
  rw [zc_X_mul', show k + 2 - 1 = k + 1 by ring] at h2
  rw [h1, h2]; push_cast; ring

theorem uPoly_d2 (v : V3) (j : ℕ) :
    derivative (derivative (uPoly v ^ (j + 1))) =
      C (((j + 1 : ℕ) : ℂ) * j * ((v 0 ^ 2 + v 1 ^ 2 + v 2 ^ 2 : ℝ) : ℂ)) * uPoly v ^ (j - 1)
      - C (((j + 1 : ℕ) : ℂ) * (2 * j + 1) * ((v 0 : ℂ) - Complex.I * v 1)) * uPoly v ^ j := by
  have hu : derivative (uPoly v) = C (-((v 0 : ℂ) - Complex.I * v 1)) * X + C (v 2 : ℂ) := by
    simp only [uPoly, derivative_add, derivative_mul, derivative_C, derivative_X_pow, derivative_X, zero_mul,
      zero_add, mul_one, add_zero, Nat.cast_ofNat]
    rw [show (-((v 0 : ℂ) - Complex.I * v 1)) = -((v 0 : ℂ) - Complex.I * v 1) / 2 * 2 by ring, C_mul]
    simp only [Nat.add_one_sub_one, pow_one, map_ofNat]
    ring
  have hd1 : derivative (uPoly v ^ (j + 1)) = C ((j + 1 : ℕ) : ℂ) * uPoly v ^ j * derivative (uPoly v) := by
    rw [derivative_pow]; simp
  have hd2 : derivative (uPoly v ^ j) = C (j : ℂ) * uPoly v ^ (j - 1) * derivative (uPoly v) := by
    rw [derivative_pow]
  have hd3 : derivative (derivative (uPoly v)) = C (-((v 0 : ℂ) - Complex.I * v 1)) := by
    rw [hu]; simp
  rw [hd1]
  simp only [derivative_mul, derivative_C, hd2, hd3, zero_mul, zero_add]
  apply Polynomial.funext
  intro t
  have h1 : eval t (derivative (uPoly v)) = (-((v 0 : ℂ) - Complex.I * v 1)) * t + v 2 := by rw [hu]; simp
  have h0 : eval t (uPoly v) = -((v 0 : ℂ) - Complex.I * v 1) / 2 * t ^ 2 + v 2 * t
      + ((v 0 : ℂ) + Complex.I * v 1) / 2 := by simp [uPoly]
  simp only [eval_sub, eval_mul, eval_add, eval_C, eval_pow, h1]
  have hI : Complex.I ^ 2 = -1 := Complex.I_sq
  rcases j with _ | j
  · simp
  · rw [Nat.add_sub_cancel, pow_succ]
    set E := eval t (uPoly v) ^ j
    rw [h0]
    push_cast
    ring_nf
    rw [hI]
    ring

/-- Raising recurrence of the solid harmonics. -/
theorem Rsol_up (j : ℕ) (c : ℤ) (v : V3) :
    ((j : ℂ) + c + 2) * ((j : ℂ) + c + 1) * Rsol (j + 1) (c + 1) v =
      (if j = 0 then 0 else ((v 0 ^ 2 + v 1 ^ 2 + v 2 ^ 2 : ℝ) : ℂ) * Rsol (j - 1) (c + 1) v)
        - (2 * j + 1) * ((v 0 : ℂ) - Complex.I * v 1) * Rsol j c v := by
  have h := congrArg (fun p => zc p ((j : ℤ) + c)) (uPoly_d2 v j)
  simp only [zc_sub, zc_C_mul, zc_deriv2] at h
  simp only [Rsol]
  have hf1 : (((j + 1).factorial : ℕ) : ℂ) = (j + 1) * j.factorial := by
    rw [Nat.factorial_succ]; push_cast; ring
  have h3 : (j.factorial : ℂ) ≠ 0 := by exact_mod_cast j.factorial_ne_zero
  have h1 : ((j : ℂ) + 1) ≠ 0 := by exact_mod_cast (by omega : j + 1 ≠ 0)
  rw [show (((j + 1 : ℕ) : ℤ) + (c + 1)) = (j : ℤ) + c + 2 by push_cast; ring, hf1]
  rcases j with _ | j
  · simp only [if_true]
    push_cast at h ⊢
    simp only [Nat.factorial_zero, Nat.cast_one, mul_one, zero_add, div_one, mul_zero, zero_mul, zero_sub] at h ⊢
    linear_combination h
  · simp only [Nat.add_eq_zero_iff, one_ne_zero, and_false, if_false, Nat.add_sub_cancel] at h ⊢
    rw [show ((j : ℕ) : ℤ) + (c + 1) = ((j + 1 : ℕ) : ℤ) + c by push_cast; ring]
    have hf0 : (((j + 1).factorial : ℕ) : ℂ) = (j + 1) * j.factorial := by
      rw [Nat.factorial_succ]; push_cast; ring
    rw [hf0] at h3 ⊢
    have h4 : (j.factorial : ℂ) ≠ 0 := by exact_mod_cast j.factorial_ne_zero
    have h5 : ((j : ℂ) + 1) ≠ 0 := by exact_mod_cast (by omega : j + 1 ≠ 0)
    push_cast at h h1 ⊢
    field_simp
    linear_combination h

theorem Rsol_down (j : ℕ) (c : ℤ) (v : V3) :
    ((j : ℂ) - c + 2) * ((j : ℂ) - c + 1) * Rsol (j + 1) (c - 1) v =
      (if j = 0 then 0 else ((v 0 ^ 2 + v 1 ^ 2 + v 2 ^ 2 : ℝ) : ℂ) * Rsol (j - 1) (c - 1) v)
        + (2 * j + 1) * ((v 0 : ℂ) + Complex.I * v 1) * Rsol j c v := by
  have h := congrArg (starRingEnd ℂ) (Rsol_up j (-c) v)
  have e1 : ∀ l : ℕ, (starRingEnd ℂ) (Rsol l (-c + 1) v) = (-1) ^ (c - 1) * Rsol l (c - 1) v := by
    intro l
    rw [show -c + 1 = -(c - 1) by ring, Rsol_neg_m, map_mul, Complex.conj_conj, map_zpow₀, map_neg, map_one]
  have e2 : (starRingEnd ℂ) (Rsol j (-c) v) = -((-1) ^ (c - 1) * Rsol j c v) := by
    rw [Rsol_neg_m, map_mul, Complex.conj_conj, map_zpow₀, map_neg, map_one, zpow_sub₀ (by norm_num), zpow_one]
    ring
  have hs : ((-1 : ℂ)) ^ (c - 1) ≠ 0 := zpow_ne_zero _ (by norm_num)
  simp only [map_mul, map_sub, map_add, e1, e2, apply_ite (starRingEnd ℂ), Complex.conj_ofReal, Complex.conj_natCast,
    Complex.conj_I, map_ofNat, map_one, map_zero, map_intCast] at h
  apply mul_left_cancel₀ hs
  split_ifs with h0
  · rw [if_pos h0] at h; push_cast at h ⊢; linear_combination h
  · rw [if_neg h0] at h; push_cast at h ⊢; linear_combination h

/-- The vertical recurrence in the same form. -/
theorem Rsol_mid (j : ℕ) (c : ℤ) (v : V3) :
    ((j : ℂ) - c + 1) * ((j : ℂ) + c + 1) * Rsol (j + 1) c v =
      (2 * j + 1) * v 2 * Rsol j c v
      - (if j = 0 then 0 else ((v 0 ^ 2 + v 1 ^ 2 + v 2 ^ 2 : ℝ) : ℂ) * Rsol (j - 1) c v) := by
  rcases j with _ | j
  · simp only [if_true]
    by_cases hc : c = 0
    · subst hc; simp [Rsol_one_zero, Rsol_zero_zero]
    · rw [Rsol_out' 0 c v (by omega)]
      by_cases hc1 : c.natAbs ≤ 1
      · rcases (by omega : c = 1 ∨ c = -1) with rfl | rfl <;> simp
      · rw [Rsol_out' 1 c v (by omega)]; simp
  · have h := Rsol_rec j c v
    simp only [Nat.add_eq_zero_iff, one_ne_zero, and_false, if_false, Nat.add_sub_cancel]
    push_cast at h ⊢
    linear_combination h

theorem Rsol_one (v : V3) : Rsol 1 1 v = -((v 0 : ℂ) - Complex.I * v 1) / 2 ∧
    Rsol 1 (-1) v = ((v 0 : ℂ) + Complex.I * v 1) / 2 := by
  constructor
  · have := Rsol_top 0 v
    simp [Rsol_zero_zero] at this
    simpa using this
  · simp [Rsol, zc, uPoly]

/-- The constant of `fO`. -/
noncomputable def Kf (j : ℕ) (c : ℤ) : ℂ :=
  ((((j : ℤ) + c).toNat.factorial : ℂ) * (((j : ℤ) - c).toNat.factorial : ℂ)) / (4 * Real.pi)

theorem fO_eq (j : ℕ) (c : ℤ) (d : V3) :
    fO j c d = Kf j c * (-1) ^ c * (Rsol j (-c) d * ((modulus d ^ (2 * j + 1) : ℝ) : ℂ)⁻¹) := by
  have h : (Nlm j c : ℂ) ^ 2 / (2 * j + 1) = Kf j c := by
    rw [← Complex.ofReal_pow, Nlm, Real.sq_sqrt (by have := Real.pi_pos; positivity), Kf]
    have h1 : (2 * (j : ℂ) + 1) ≠ 0 := by exact_mod_cast (by omega : 2 * j + 1 ≠ 0)
    have hpi : (Real.pi : ℂ) ≠ 0 := by exact_mod_cast Real.pi_ne_zero
    push_cast
    field_simp
  have hc : (starRingEnd ℂ) (Rsol j c d) = (-1) ^ c * Rsol j (-c) d := by
    rw [Rsol_neg_m, ← mul_assoc, ← zpow_add₀ (by norm_num), Even.neg_one_zpow ⟨c, rfl⟩, one_mul]
  rw [fO, h, hc, div_eq_mul_inv]; ring

theorem modulus_dir (x e : V3) (t : ℝ) (h : x + t • e ≠ 0) :
    HasDerivAt (fun t : ℝ => modulus (x + t • e)) (((x + t • e) ⬝ᵥ e) / modulus (x + t • e)) t := by
  have hc : ∀ i, HasDerivAt (fun t : ℝ => (x + t • e) i) (e i) t := by
    intro i
    simpa using ((hasDerivAt_id t).mul_const (e i)).const_add (x i)
  have h1 := (((hc 0).pow 2).add ((hc 1).pow 2)).add ((hc 2).pow 2)
  have hm := modulus_pos h
  have hne : (x + t • e) 0 ^ 2 + (x + t • e) 1 ^ 2 + (x + t • e) 2 ^ 2 ≠ 0 := by
    intro hz
    rw [modulus, hz, Real.sqrt_zero] at hm
    exact lt_irrefl _ hm
  have h2 := h1.sqrt hne
  refine h2.congr_deriv ?_
  change _ / (2 * modulus (x + t • e)) = _
  rw [dotProduct, Fin.sum_univ_three]
  field_simp
  simp only [Pi.add_apply, Pi.smul_apply, smul_eq_mul]
  ring

theorem Kf_up (j : ℕ) (c : ℤ) (h : c.natAbs ≤ j) : Kf (j + 1) (c + 1) = ((j : ℂ) + c + 2) * ((j : ℂ) + c + 1) * Kf j c := by
  obtain ⟨n, hn⟩ : ∃ n : ℕ, (j : ℤ) + c = n := ⟨((j : ℤ) + c).toNat, by omega⟩
  have hn' : ((j : ℂ) + c) = n := by exact_mod_cast hn
  rw [Kf, Kf, show (((j + 1 : ℕ) : ℤ) + (c + 1)).toNat = n + 2 by omega,
    show (((j + 1 : ℕ) : ℤ) - (c + 1)).toNat = ((j : ℤ) - c).toNat by omega, hn, Int.toNat_natCast, hn']
  rw [Nat.factorial_succ, Nat.factorial_succ]; push_cast; ring

theorem Kf_neg (j : ℕ) (c : ℤ) : Kf j (-c) = Kf j c := by
  rw [Kf, Kf, sub_neg_eq_add, ← sub_eq_add_neg]; ring

theorem Kf_down (j : ℕ) (c : ℤ) (h : c.natAbs ≤ j) :
    Kf (j + 1) (c - 1) = ((j : ℂ) - c + 2) * ((j : ℂ) - c + 1) * Kf j c := by
  rw [← Kf_neg, show -(c - 1) = -c + 1 by ring, Kf_up j (-c) (by omega), Kf_neg]; push_cast; ring

theorem Kf_mid (j : ℕ) (c : ℤ) (h : c.natAbs ≤ j) :
    Kf (j + 1) c = ((j : ℂ) - c + 1) * ((j : ℂ) + c + 1) * Kf j c := by
  obtain ⟨n, hn⟩ : ∃ n : ℕ, (j : ℤ) + c = n := ⟨((j : ℤ) + c).toNat, by omega⟩
  obtain ⟨k, hk⟩ : ∃ k : ℕ, (j : ℤ) - c = k := ⟨((j : ℤ) - c).toNat, by omega⟩
  have hn' : ((j : ℂ) + c) = n := by exact_mod_cast hn
  have hk' : ((j : ℂ) - c) = k := by exact_mod_cast hk
  rw [Kf, Kf, show (((j + 1 : ℕ) : ℤ) + c).toNat = n + 1 by omega,
    show (((j + 1 : ℕ) : ℤ) - c).toNat = k + 1 by omega, hn, hk, Int.toNat_natCast, Int.toNat_natCast, hn', hk']
  rw [Nat.factorial_succ, Nat.factorial_succ]; push_cast; ring

theorem sum_three (f : ℤ → ℂ) : ∑ a ∈ Finset.Icc (-1 : ℤ) 1, f a = f (-1) + f 0 + f 1 := by
  rw [show Finset.Icc (-1 : ℤ) 1 = {-1, 0, 1} by decide]
  rw [Finset.sum_insert (by decide), Finset.sum_insert (by decide), Finset.sum_singleton]; ring

/-- Derivative of the irregular solid harmonics along a line. -/
theorem fO_dir (j : ℕ) (c : ℤ) (hc : c.natAbs ≤ j) (x e : V3) (t : ℝ) (h : x + t • e ≠ 0) :
    HasDerivAt (fun t : ℝ => fO j c (x + t • e))
      (-(∑ a ∈ Finset.Icc (-1 : ℤ) 1, Rsol 1 a e * fO (j + 1) (c + a) (x + t • e))) t := by
  have hm := modulus_pos h
  have h1 := Rsol_dir j (-c) x e t
  have h2 : HasDerivAt (fun t : ℝ => ((modulus (x + t • e) ^ (2 * j + 1) : ℝ) : ℂ))
      ((((2 * j + 1 : ℕ) : ℝ) * modulus (x + t • e) ^ (2 * j) *
        (((x + t • e) ⬝ᵥ e) / modulus (x + t • e)) : ℝ) : ℂ) t := by
    have := ((modulus_dir x e t h).pow (2 * j + 1)).ofReal_comp
    simpa using this
  have h3 := h2.fun_inv (by exact_mod_cast (pow_pos hm _).ne')
  have h4 := (h1.mul h3).const_mul (Kf j c * (-1) ^ c)
  have hfun : (fun t : ℝ => fO j c (x + t • e)) = fun t : ℝ => Kf j c * (-1) ^ c *
      (Rsol j (-c) (x + t • e) * ((modulus (x + t • e) ^ (2 * j + 1) : ℝ) : ℂ)⁻¹) := by
    funext s; rw [fO_eq]
  rw [hfun]
  refine h4.congr_deriv ?_
  set y := x + t • e with hy
  rw [sum_three, sum_three, fO_eq, fO_eq, fO_eq]
  obtain ⟨e1, e2⟩ := Rsol_one e
  have e0 := Rsol_one_zero e
  have k1 := Kf_up j c hc
  have k2 := Kf_down j c hc
  have k0 := Kf_mid j c hc
  have r1 := Rsol_down j (-c) y
  have r2 := Rsol_up j (-c) y
  have r0 := Rsol_mid j (-c) y
  have hsq : ((y 0 ^ 2 + y 1 ^ 2 + y 2 ^ 2 : ℝ) : ℂ) = (modulus y : ℂ) ^ 2 := by
    rw [← Complex.ofReal_pow, modulus_sq, nsq]
  rw [hsq] at r0 r1 r2
  have hdot : (((y ⬝ᵥ e : ℝ)) : ℂ) = y 0 * e 0 + y 1 * e 1 + y 2 * e 2 := by
    rw [dotProduct, Fin.sum_univ_three]; push_cast; ring
  have hmC : (modulus y : ℂ) ≠ 0 := by exact_mod_cast hm.ne'
  have s1 : ((-1 : ℂ)) ^ (c - 1) = -(-1) ^ c := by rw [zpow_sub₀ (by norm_num), zpow_one]; ring
  have s2 : ((-1 : ℂ)) ^ (c + 1) = -(-1) ^ c := by rw [zpow_add₀ (by norm_num), zpow_one]; ring
  rw [add_zero, show c + -1 = c - 1 by ring, k0, k1, k2, e0, e1, e2,
    show -(c - 1) = -c + 1 by ring, show -(c + 1) = -c - 1 by ring, sub_zero,
    show -c - -1 = -c + 1 by ring, s1, s2]
  have q1 : ((modulus y ^ (2 * j + 1) : ℝ) : ℂ) = (modulus y : ℂ) ^ (2 * j) * modulus y := by push_cast; ring
  have q2 : ((modulus y ^ (2 * (j + 1) + 1) : ℝ) : ℂ) = (modulus y : ℂ) ^ (2 * j) * modulus y ^ 3 := by
    push_cast; ring
  have q3 : ((((2 * j + 1 : ℕ) : ℝ) * modulus y ^ (2 * j) * ((y ⬝ᵥ e) / modulus y) : ℝ) : ℂ) =
      (2 * j + 1) * (modulus y : ℂ) ^ (2 * j) * ((y 0 * e 0 + y 1 * e 1 + y 2 * e 2) / modulus y) := by
    rw [← hdot]; push_cast; ring
  rw [q1, q2, q3]
  have hP : (modulus y : ℂ) ^ (2 * j) ≠ 0 := pow_ne_zero _ hmC
  set P := (modulus y : ℂ) ^ (2 * j)
  set ρ := (modulus y : ℂ)
  have hI : Complex.I ^ 2 = -1 := Complex.I_sq
  push_cast at r0 r1 r2
  split_ifs with hj
  · simp only [if_pos hj] at r0 r1 r2
    field_simp
    linear_combination (-Kf j c * (e 0 + Complex.I * e 1)) * r2 + 2 * Kf j c * e 2 * r0
      + Kf j c * (e 0 - Complex.I * e 1) * r1
      + (-2 * Kf j c * (2 * j + 1) * Rsol j (-c) y * e 1 * y 1) * hI
  · simp only [if_neg hj] at r0 r1 r2
    field_simp
    linear_combination (-Kf j c * (e 0 + Complex.I * e 1)) * r2 + 2 * Kf j c * e 2 * r0
      + Kf j c * (e 0 - Complex.I * e 1) * r1
      + (-2 * Kf j c * (2 * j + 1) * Rsol j (-c) y * e 1 * y 1) * hI

theorem Rsol_euler (k : ℕ) (m : ℤ) (e : V3) :
    ((k : ℂ) + 1) * Rsol (k + 1) m e = ∑ a ∈ Finset.Icc (-1 : ℤ) 1, Rsol 1 a e * Rsol k (m - a) e := by
  have h1 := Rsol_dir (k + 1) m 0 e 1
  simp only [Nat.add_eq_zero_iff, one_ne_zero, and_false, if_false, Nat.add_sub_cancel, zero_add, one_smul] at h1
  have h2 : HasDerivAt (fun t : ℝ => Rsol (k + 1) m (t • e)) ((((k + 1 : ℕ) : ℂ) * ((1 : ℝ) : ℂ) ^ (k + 1 - 1) * 1) *
      Rsol (k + 1) m e) 1 := by
    have := ((ofReal_deriv 1).pow (k + 1)).mul_const (Rsol (k + 1) m e)
    refine this.congr_of_eventuallyEq (Filter.Eventually.of_forall fun t => ?_)
    change Rsol (k + 1) m (t • e) = (t : ℂ) ^ (k + 1) * _
    rw [Rsol_smul]
  rw [h1.unique h2]
  push_cast; simp

/-- The degree-`k` term of the Taylor expansion of `fO L M` at `y` in the direction `e`. -/
noncomputable def tayl (L : ℕ) (M : ℤ) (e : V3) (k : ℕ) (y : V3) : ℂ :=
  ∑ n ∈ Finset.Icc (-(k : ℤ)) k, fO (L + k) (M + n) y * Rsol k n e

theorem tayl_dir (L : ℕ) (M : ℤ) (hM : M.natAbs ≤ L) (e x : V3) (k : ℕ) (t : ℝ) (h : x + t • e ≠ 0) :
    HasDerivAt (fun t : ℝ => tayl L M e k (x + t • e)) (-((k + 1 : ℂ) * tayl L M e (k + 1) (x + t • e))) t := by
  have h1 : HasDerivAt (fun t : ℝ => tayl L M e k (x + t • e))
      (∑ n ∈ Finset.Icc (-(k : ℤ)) k,
        (-(∑ a ∈ Finset.Icc (-1 : ℤ) 1, Rsol 1 a e * fO (L + k + 1) (M + n + a) (x + t • e))) * Rsol k n e) t := by
    apply HasDerivAt.fun_sum
    intro n hn
    rw [Finset.mem_Icc] at hn
    exact (fO_dir (L + k) (M + n) (by omega) x e t h).mul_const _
  refine h1.congr_deriv ?_
  set y := x + t • e
  simp only [neg_mul, Finset.sum_neg_distrib, neg_inj]
  rw [tayl, Finset.mul_sum]
  have h2 : ∀ n ∈ Finset.Icc (-((k + 1 : ℕ) : ℤ)) ((k + 1 : ℕ) : ℤ),
      ((k : ℂ) + 1) * (fO (L + (k + 1)) (M + n) y * Rsol (k + 1) n e) =
      ∑ a ∈ Finset.Icc (-1 : ℤ) 1, Rsol 1 a e * fO (L + k + 1) (M + n) y * Rsol k (n - a) e := by
    intro n _
    rw [mul_left_comm, Rsol_euler, Finset.mul_sum]
    apply Finset.sum_congr rfl; intro a _; rw [← add_assoc]; ring
  rw [Finset.sum_congr rfl h2, Finset.sum_comm]
  simp only [Finset.sum_mul]
  rw [Finset.sum_comm]
  apply Finset.sum_congr rfl
  intro a ha
  rw [Finset.mem_Icc] at ha
  refine Finset.sum_of_injOn (fun n => n + a) (fun _ _ _ _ hh => by simpa using hh) ?_ ?_ ?_
  · intro n hn
    simp only [Finset.coe_Icc, Set.mem_Icc] at hn ⊢
    push_cast; omega
  · intro n hn hn'
    have : k < (n - a).natAbs := by
      by_contra hlt
      apply hn'
      refine ⟨n - a, ?_, by simp⟩
      simp only [Finset.coe_Icc, Set.mem_Icc]
      omega
    rw [Rsol_out' k (n - a) e this, mul_zero]
  · intro n _
    simp only [add_sub_cancel_right, add_assoc]

/-- Taylor polynomial from the moving base point `x + t e` to `x + e`. -/
noncomputable def tpol (L : ℕ) (M : ℤ) (e x : V3) (K : ℕ) (t : ℝ) : ℂ :=
  ∑ k ∈ Finset.range (K + 1), (-1) ^ k * ((1 - t : ℝ) : ℂ) ^ k * tayl L M e k (x + t • e)

theorem tpol_dir (L : ℕ) (M : ℤ) (hM : M.natAbs ≤ L) (e x : V3) (t : ℝ) (h : x + t • e ≠ 0) (K : ℕ) :
    HasDerivAt (tpol L M e x K)
      ((-1) ^ (K + 1) * ((1 - t : ℝ) : ℂ) ^ K * ((K + 1 : ℂ) * tayl L M e (K + 1) (x + t • e))) t := by
  have hs : HasDerivAt (fun t : ℝ => ((1 - t : ℝ) : ℂ)) (-1) t := by
    have := ((hasDerivAt_id t).const_sub 1).ofReal_comp
    simpa using this
  induction K with
  | zero =>
    have := tayl_dir L M hM e x 0 t h
    refine (this.congr_of_eventuallyEq (Filter.Eventually.of_forall fun s => ?_)).congr_deriv ?_
    · simp [tpol]
    · simp
  | succ K ih =>
    have h1 := (((hs.pow (K + 1)).const_mul ((-1 : ℂ) ^ (K + 1))).mul (tayl_dir L M hM e x (K + 1) t h))
    have h2 := ih.add h1
    refine (h2.congr_of_eventuallyEq (Filter.Eventually.of_forall fun s => ?_)).congr_deriv ?_
    · simp only [tpol, Pi.add_apply, Pi.mul_apply, Pi.pow_apply]
      rw [Finset.sum_range_succ]
    · simp only [Pi.pow_apply, Nat.add_sub_cancel]
      push_cast
      ring

theorem fact_ratio' (n K : ℕ) : ∀ j : ℕ, n + j ≤ K → (((n + j).factorial : ℕ) : ℝ) ≤ (n.factorial : ℝ) * (K : ℝ) ^ j := by
  intro j
  induction j with
  | zero => intro _; simp
  | succ j ih =>
    intro h
    have h1 := ih (by omega)
    rw [← add_assoc, Nat.factorial_succ, pow_succ]
    push_cast
    have h2 : ((n : ℝ) + j + 1) ≤ K := by exact_mod_cast h
    calc ((n : ℝ) + j + 1) * ((n + j).factorial : ℝ) ≤ K * ((n.factorial : ℝ) * (K : ℝ) ^ j) := by gcongr
      _ = _ := by ring

theorem Nlm_ratio' (L k : ℕ) (M n : ℤ) (hM : M.natAbs ≤ L) (hn : n.natAbs ≤ k) :
    Nlm (L + k) (M + n) ≤ (2 * L + 2 * k + 1) ^ (L + 1) * Nlm k n := by
  have hp := Real.pi_pos
  apply Real.sqrt_le_iff.2
  have hN := Nlm_pos k n
  refine ⟨by positivity, ?_⟩
  rw [mul_pow, Nlm, Real.sq_sqrt (by positivity)]
  obtain ⟨i, hi⟩ : ∃ i : ℕ, (L + M) = i := ⟨(L + M).toNat, by omega⟩
  obtain ⟨j, hj⟩ : ∃ j : ℕ, (L - M) = j := ⟨(L - M).toNat, by omega⟩
  have f1 := fact_ratio' ((k : ℤ) + n).toNat (2 * L + 2 * k + 1) i (by omega)
  have f2 := fact_ratio' ((k : ℤ) - n).toNat (2 * L + 2 * k + 1) j (by omega)
  rw [show ((k : ℤ) + n).toNat + i = (((L + k : ℕ) : ℤ) + (M + n)).toNat by omega] at f1
  rw [show ((k : ℤ) - n).toNat + j = (((L + k : ℕ) : ℤ) - (M + n)).toNat by omega] at f2
  set P := ((k : ℤ) + n).toNat.factorial
  set R := ((k : ℤ) - n).toNat.factorial
  have hprod := mul_le_mul f1 f2 (by positivity) (by positivity)
  have hij : i + j = 2 * L := by omega
  push_cast at hprod ⊢
  set B : ℝ := 2 * L + 2 * k + 1
  have e : (P : ℝ) * B ^ i * ((R : ℝ) * B ^ j) = P * R * (B ^ L) ^ 2 := by
    have : B ^ i * B ^ j = (B ^ L) ^ 2 := by rw [← pow_add, hij, mul_comm, pow_mul]
    linear_combination (P : ℝ) * R * this
  rw [e] at hprod
  have hB : B ≤ B ^ 2 * (2 * k + 1) := by
    have hL0 : (0 : ℝ) ≤ L := Nat.cast_nonneg L
    have hk0 : (0 : ℝ) ≤ k := Nat.cast_nonneg k
    have h1 : 1 ≤ B := by simp only [B]; linarith
    nlinarith [mul_nonneg (by positivity : (0 : ℝ) ≤ B) hk0]
  calc (2 * ((L : ℝ) + k) + 1) / (4 * Real.pi) * ((((L : ℤ) + k + (M + n)).toNat.factorial : ℝ) * (((L : ℤ) + k - (M + n)).toNat.factorial : ℝ))
      ≤ B / (4 * Real.pi) * (P * R * (B ^ L) ^ 2) := by
        have : 2 * ((L : ℝ) + k) + 1 = B := by simp only [B]; ring
        rw [this]
        gcongr
    _ ≤ (B ^ 2 * (2 * k + 1)) / (4 * Real.pi) * (P * R * (B ^ L) ^ 2) := by gcongr
    _ = _ := by ring

theorem norm_fO_le (j : ℕ) (c : ℤ) (y : V3) (hy : y ≠ 0) : ‖fO j c y‖ ≤ Nlm j c / modulus y ^ (j + 1) := by
  have hm := modulus_pos hy
  have h : fO j c y = ((Nlm j c / (2 * j + 1) : ℝ) : ℂ) * solidO j c y := by
    rw [fO, solidO, solidS, map_mul, Complex.conj_ofReal]; push_cast; ring
  have hN := (Nlm_pos j c).le
  rw [h, norm_mul, Complex.norm_real, Real.norm_eq_abs, abs_of_nonneg (by positivity)]
  calc Nlm j c / (2 * j + 1) * ‖solidO j c y‖ ≤ Nlm j c / (2 * j + 1) * ((2 * j + 1) / modulus y ^ (j + 1)) := by
        gcongr; exact norm_solidO_le j c y hy
    _ = _ := by field_simp

theorem norm_tayl_le (L : ℕ) (M : ℤ) (hM : M.natAbs ≤ L) (e y : V3) (hy : y ≠ 0) (k : ℕ) :
    ‖tayl L M e k y‖ ≤ (2 * k + 1) ^ 2 * (2 * L + 2 * k + 1) ^ (L + 1) * (modulus e ^ k / modulus y ^ (L + k + 1)) := by
  have hm := modulus_pos hy
  have he := modulus_nonneg e
  have ht : ∀ n ∈ Finset.Icc (-(k : ℤ)) k, ‖fO (L + k) (M + n) y * Rsol k n e‖ ≤
      (2 * k + 1) * (2 * L + 2 * k + 1) ^ (L + 1) * (modulus e ^ k / modulus y ^ (L + k + 1)) := by
    intro n hn
    rw [Finset.mem_Icc] at hn
    have h1 := norm_fO_le (L + k) (M + n) y hy
    have h2 := norm_solidS_le k n e
    have h3 := Nlm_ratio' L k M n hM (by omega)
    have hN := Nlm_pos k n
    rw [solidS, norm_mul, Complex.norm_real, Real.norm_eq_abs, abs_of_pos hN] at h2
    rw [norm_mul]
    calc ‖fO (L + k) (M + n) y‖ * ‖Rsol k n e‖
        ≤ ((2 * L + 2 * k + 1) ^ (L + 1) * Nlm k n) / modulus y ^ (L + k + 1) * ‖Rsol k n e‖ := by
          gcongr; exact h1.trans (by gcongr)
      _ = (2 * L + 2 * k + 1) ^ (L + 1) / modulus y ^ (L + k + 1) * (Nlm k n * ‖Rsol k n e‖) := by ring
      _ ≤ (2 * L + 2 * k + 1) ^ (L + 1) / modulus y ^ (L + k + 1) * ((2 * k + 1) * modulus e ^ k) := by gcongr
      _ = _ := by ring
  rw [tayl]
  refine (norm_sum_le _ _).trans ((Finset.sum_le_sum ht).trans ?_)
  rw [Finset.sum_const, Int.card_Icc, nsmul_eq_mul]
  have : (((k : ℤ) + 1 - -(k : ℤ)).toNat : ℝ) = 2 * k + 1 := by
    rw [show ((k : ℤ) + 1 - -(k : ℤ)).toNat = 2 * k + 1 by omega]; push_cast; ring
  rw [this]
  apply le_of_eq; ring

/-- Error of the Taylor expansion of the irregular solid harmonics, uniform on a ball. -/
theorem tayl_error (L : ℕ) (M : ℤ) (hM : M.natAbs ≤ L) (x e : V3) (a : ℝ) (he : modulus e ≤ a) (ha : a < modulus x)
    (K : ℕ) :
    ‖fO L M (x + e) - ∑ k ∈ Finset.range (K + 1), (-1) ^ k * tayl L M e k x‖ ≤
      (K + 1) * (2 * K + 3) ^ 2 * (2 * L + 2 * K + 3) ^ (L + 1) *
        ((a / modulus x) ^ K * (a / (modulus x - a) ^ (L + 2))) := by
  have he0 := modulus_nonneg e
  set D := modulus x
  have ha0 : 0 ≤ a := he0.trans he
  have hD : 0 < D := lt_of_le_of_lt ha0 ha
  have hy : ∀ t ∈ Set.Icc (0 : ℝ) 1, D - t * a ≤ modulus (x + t • e) := by
    intro t ht
    have h1 := modulus_add_le (x + t • e) (-(t • e))
    rw [add_neg_cancel_right, modulus_neg] at h1
    have h2 : modulus (t • e) = t * modulus e := by
      rw [modulus_smul, abs_of_nonneg ht.1]
    have h3 : t * modulus e ≤ t * a := mul_le_mul_of_nonneg_left he ht.1
    change D ≤ _ at h1
    linarith
  have hpos : ∀ t ∈ Set.Icc (0 : ℝ) 1, 0 < D - t * a := by
    intro t ht
    have : t * a ≤ 1 * a := mul_le_mul_of_nonneg_right ht.2 ha0
    linarith
  have hne : ∀ t ∈ Set.Icc (0 : ℝ) 1, x + t • e ≠ 0 := by
    intro t ht h0
    have := hy t ht
    rw [h0, (modulus_eq_zero 0).2 rfl] at this
    linarith [hpos t ht]
  have hder : ∀ t ∈ Set.Icc (0 : ℝ) 1, HasDerivWithinAt (tpol L M e x K) _ (Set.Icc 0 1) t :=
    fun t ht => (tpol_dir L M hM e x t (hne t ht) K).hasDerivWithinAt
  have hb : ∀ t ∈ Set.Ico (0 : ℝ) 1,
      ‖(-1) ^ (K + 1) * ((1 - t : ℝ) : ℂ) ^ K * ((K + 1 : ℂ) * tayl L M e (K + 1) (x + t • e))‖ ≤
      (K + 1) * (2 * K + 3) ^ 2 * (2 * L + 2 * K + 3) ^ (L + 1) *
        ((a / D) ^ K * (a / (D - a) ^ (L + 2))) := by
    intro t ht
    have ht' : t ∈ Set.Icc (0 : ℝ) 1 := ⟨ht.1, ht.2.le⟩
    have h1 := norm_tayl_le L M hM e (x + t • e) (hne t ht') (K + 1)
    have hyt := hy t ht'
    have hpt := hpos t ht'
    have h1t : 0 ≤ 1 - t := by linarith [ht.2]
    have hDa : D - a ≤ D - t * a := by
      have : t * a ≤ 1 * a := mul_le_mul_of_nonneg_right ht'.2 ha0
      linarith
    have hDa0 : 0 < D - a := by linarith
    rw [norm_mul, norm_mul, norm_mul, norm_pow, norm_pow, norm_neg, norm_one, one_pow, one_mul,
      Complex.norm_real, Real.norm_eq_abs, abs_of_nonneg h1t]
    have hK : ‖((K : ℂ) + 1)‖ = K + 1 := by
      rw [show ((K : ℂ) + 1) = ((K + 1 : ℝ) : ℂ) by push_cast; rfl, Complex.norm_real, Real.norm_eq_abs,
        abs_of_nonneg (by positivity)]
    rw [hK]
    have hrat : (1 - t) * a / (D - t * a) ≤ a / D := by
      rw [div_le_div_iff₀ hpt hD]
      nlinarith [mul_nonneg ht.1 ha0, mul_nonneg (mul_nonneg ht.1 ha0) (by linarith : 0 ≤ D - a)]
    have hcore : (1 - t) ^ K * (modulus e ^ (K + 1) / modulus (x + t • e) ^ (L + (K + 1) + 1)) ≤
        (a / D) ^ K * (a / (D - a) ^ (L + 2)) := by
      calc (1 - t) ^ K * (modulus e ^ (K + 1) / modulus (x + t • e) ^ (L + (K + 1) + 1))
          ≤ (1 - t) ^ K * (a ^ (K + 1) / (D - t * a) ^ (L + (K + 1) + 1)) := by gcongr
        _ = ((1 - t) * a / (D - t * a)) ^ K * (a / (D - t * a) ^ (L + 2)) := by
          rw [div_pow, mul_pow, div_mul_div_comm, ← pow_add, show K + (L + 2) = L + (K + 1) + 1 by ring]
          rw [pow_succ a]; ring
        _ ≤ (a / D) ^ K * (a / (D - a) ^ (L + 2)) := by gcongr
    push_cast at h1
    calc (1 - t) ^ K * (((K : ℝ) + 1) * ‖tayl L M e (K + 1) (x + t • e)‖)
        ≤ (1 - t) ^ K * (((K : ℝ) + 1) * ((2 * (K + 1) + 1) ^ 2 * (2 * L + 2 * (K + 1) + 1) ^ (L + 1) *
          (modulus e ^ (K + 1) / modulus (x + t • e) ^ (L + (K + 1) + 1)))) := by gcongr
      _ = ((K : ℝ) + 1) * (2 * K + 3) ^ 2 * (2 * L + 2 * K + 3) ^ (L + 1) *
          ((1 - t) ^ K * (modulus e ^ (K + 1) / modulus (x + t • e) ^ (L + (K + 1) + 1))) := by ring
      _ ≤ _ := by gcongr
  have hmv := norm_image_sub_le_of_norm_deriv_le_segment_01' hder hb
  have e1 : tpol L M e x K 1 = fO L M (x + e) := by
    rw [tpol, Finset.sum_range_succ', Finset.sum_eq_zero]
    · simp [tayl, Rsol_zero_zero]
    · intro k _; simp
  have e0 : tpol L M e x K 0 = ∑ k ∈ Finset.range (K + 1), (-1) ^ k * tayl L M e k x := by
    simp [tpol]
  rw [e1, e0] at hmv
  exact hmv

end Newt
