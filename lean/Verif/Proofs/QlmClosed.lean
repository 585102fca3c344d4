import Verif.Model.Qlm
import Verif.Proofs.Planar
import Verif.Proofs.ClebschGordan
import Verif.Proofs.Pg2Multi

/-! # Closed forms of uniform prisms and cones in terms of planar moments -/

namespace Newt

open MeasureTheory Finset Spec Qlm

theorem exp_gammaln_nat (x : ℝ) (n : ℕ) (hx : x = n + 1) : Real.exp (gammaln x) = n.factorial := by
  have := exp_gammaln x n (by positivity) (by rw [hx]; simp)
  simpa [fct] using this

theorem gam3_eq (l m k : ℕ) (h : m + 2 * k ≤ l) :
    gam3 l m k = k.factorial * (m + k).factorial * (l - m - 2 * k + 1).factorial := by
  rw [gam3, Real.exp_add, Real.exp_add, exp_gammaln_nat _ k rfl,
    exp_gammaln_nat _ (m + k) (by push_cast; ring), exp_gammaln_nat _ (l - m - 2 * k + 1) ?_]
  push_cast
  rw [Nat.sub_sub, Nat.cast_sub h]; push_cast; ring

theorem lmfac_eq (l m : ℕ) (h : m ≤ l) :
    lmfac l m = Real.sqrt ((l + m).factorial * (l - m).factorial) := by
  rw [lmfac, Real.exp_add, exp_gammaln_nat _ (l + m) (by push_cast; ring),
    exp_gammaln_nat _ (l - m) (by rw [Nat.cast_sub h])]

theorem mass_Nlm (mass : ℝ) (l m : ℕ) (h : m ≤ l) :
    mass * Nlm l m = factor mass * Real.sqrt (2 * l + 1) * lmfac l m := by
  rw [lmfac_eq l m h, Nlm, factor, mul_assoc, mul_assoc, ← Real.sqrt_mul (by positivity),
    ← Real.sqrt_mul (by have := Real.pi_pos; positivity)]
  congr 2
  rw [show ((l : ℤ) + (m : ℤ)).toNat = l + m by omega, show ((l : ℤ) - (m : ℤ)).toNat = l - m by omega]
  ring

theorem uniform_prism (mass H : ℝ) (hH : 0 < H) (B : Set (ℝ × ℝ)) (hB : IsCompact B) (l m : ℕ)
    (hm : m ≤ l) :
    uniformMoment mass (prism H B) l m =
      if (l - m) % 2 = 0 then
        (∑ k ∈ range ((l - m) / 2 + 1),
          (((-1) ^ (k + m) * H ^ (l - 2 * k - m) / ((2 : ℝ) ^ l * gam3 l m k) : ℝ) : ℂ)
            * (pm B m k / pm B 0 0))
        * ((factor mass * Real.sqrt (2 * l + 1) * lmfac l m : ℝ) : ℂ)
      else 0 := by
  rw [uniformMoment, prism_int H hH B hB l m hm, prism_vol H hH, pm_zero, ← mass_Nlm mass l m hm]
  split_ifs with hpar
  · rw [mul_sum, sum_mul]
    refine sum_congr rfl fun k hk => ?_
    have hk' : m + 2 * k ≤ l := by simp only [mem_range] at hk; omega
    rw [zint_even H _ (by omega), gam3_eq l m k hk', rc, show l - 2 * k - m = l - m - 2 * k by omega]
    set e := l - m - 2 * k with he
    have hl : l = m + 2 * k + e := by omega
    have h2 : (2 : ℝ) ^ l = 2 ^ (m + 2 * k) * 2 ^ e := by rw [hl, pow_add]
    rw [h2, Nat.factorial_succ e]
    have hreal : mass / (H * (volume B).toReal) * (Nlm l m * ((-1) ^ (m + k) /
        (2 ^ (m + 2 * k) * (k.factorial : ℝ) * ((m + k).factorial : ℝ) * (e.factorial : ℝ))) *
          (2 * (H / 2) ^ (e + 1) / ((e : ℝ) + 1)))
        = (-1) ^ (k + m) * H ^ e / (2 ^ (m + 2 * k) * 2 ^ e * ((k.factorial : ℝ) * ((m + k).factorial : ℝ)
          * ((((e + 1) * e.factorial : ℕ)) : ℝ))) / (volume B).toReal * (mass * Nlm l m) := by
      have := Nat.factorial_ne_zero
      rw [div_pow, pow_succ H, pow_succ (2 : ℝ) e, add_comm m k]
      push_cast
      by_cases hv : (volume B).toReal = 0
      · rw [hv]; simp
      field_simp
    have hc := congrArg (fun r : ℝ => (r : ℂ)) hreal
    simp only [Complex.ofReal_mul, Complex.ofReal_div] at hc ⊢
    linear_combination (pm B m k) * hc
  · apply mul_eq_zero_of_right
    refine sum_eq_zero fun k hk => ?_
    have hk' : m + 2 * k ≤ l := by simp only [mem_range] at hk; omega
    rw [zint_odd H _ (by omega)]; simp

theorem uniform_cone (mass P : ℝ) (hP : 0 < P) (B : Set (ℝ × ℝ)) (hB : IsCompact B) (l m : ℕ)
    (hm : m ≤ l) :
    uniformMoment mass (coneOver P B) l m =
        (∑ k ∈ range ((l - m) / 2 + 1),
          (((-1) ^ (k + m) * P ^ (l - 2 * k - m) * (m + 2 * k + 2).factorial
            / ((2 : ℝ) ^ (m + 2 * k) * k.factorial * (m + k).factorial) : ℝ) : ℂ)
            * (pm B m k / pm B 0 0))
        * ((3 * factor mass * Real.sqrt (2 * l + 1) / Real.exp (gammaln ((l : ℝ) + 4)) * lmfac l m : ℝ) : ℂ) := by
  have hN : 3 * factor mass * Real.sqrt (2 * l + 1) / Real.exp (gammaln ((l : ℝ) + 4)) * lmfac l m
      = 3 * (mass * Nlm l m) / (l + 3).factorial := by
    rw [mass_Nlm mass l m hm, exp_gammaln_nat _ (l + 3) (by push_cast; ring)]; ring
  rw [hN, uniformMoment, cone_int P hP B hB l m hm, cone_vol P hP B hB, pm_zero]
  rw [mul_sum, sum_mul]
  refine sum_congr rfl fun k hk => ?_
  have hk' : m + 2 * k ≤ l := by simp only [mem_range] at hk; omega
  rw [bint_eq P hP, rc, show l - 2 * k - m = l - m - 2 * k by omega,
    show l - m - 2 * k + (m + 2 * k + 2) + 1 = l + 3 by omega]
  set e := l - m - 2 * k with he
  have hreal : mass / (P / 3 * (volume B).toReal) * (Nlm l m * ((-1) ^ (m + k) /
      (2 ^ (m + 2 * k) * (k.factorial : ℝ) * ((m + k).factorial : ℝ) * (e.factorial : ℝ))) *
        (P ^ (e + 1) * ((e.factorial : ℝ) * ((m + 2 * k + 2).factorial : ℝ) / ((l + 3).factorial : ℝ))))
      = (-1) ^ (k + m) * P ^ e * ((m + 2 * k + 2).factorial : ℝ) / (2 ^ (m + 2 * k) * (k.factorial : ℝ)
        * ((m + k).factorial : ℝ)) / (volume B).toReal * (3 * (mass * Nlm l m) / ((l + 3).factorial : ℝ)) := by
    have := Nat.factorial_ne_zero
    rw [pow_succ P, add_comm m k]
    by_cases hv : (volume B).toReal = 0
    · rw [hv]; simp
    field_simp
  have hc := congrArg (fun r : ℝ => (r : ℂ)) hreal
  simp only [Complex.ofReal_mul, Complex.ofReal_div] at hc ⊢
  linear_combination (pm B m k) * hc

theorem uniformMoment_neg (mass : ℝ) (S : Set V3) (l : ℕ) (m : ℤ) :
    uniformMoment mass S l (-m) = (-1) ^ m.natAbs * (starRingEnd ℂ) (uniformMoment mass S l m) := by
  rw [uniformMoment, uniformMoment, map_mul, Complex.conj_ofReal, ← integral_conj]
  simp_rw [solidS_neg]
  rw [integral_const_mul]; ring

theorem uniformMoment_out (mass : ℝ) (S : Set V3) (l : ℕ) (m : ℤ) (h : l < m.natAbs) :
    uniformMoment mass S l m = 0 := by
  simp [uniformMoment, solidS_out l m _ h]

/-- A constructor whose `m >= 0` cells are the uniform moments returns the uniform moments. -/
theorem fill_eq (L : ℕ) (val : ℕ → ℕ → ℂ) (mass : ℝ) (S : Set V3)
    (h : ∀ l m : ℕ, m ≤ l → l ≤ L → val l m = uniformMoment mass S l m) :
    fill L val = Mom.ofFn L (uniformMoment mass S) := by
  apply Mom.ext_get
  intro l m hl hm
  rw [Mom.get_ofFn _ hl hm, fill]
  refine get_fillNeg_sym _ (uniformMoment mass S) l hl ?_ (fun m _ => uniformMoment_neg mass S l m) m hm
  intro m hm
  by_cases h0 : 0 ≤ m
  · by_cases h1 : m ≤ l
    · rw [if_pos ⟨h0, h1⟩, if_pos h0, h l m.toNat (by omega) hl, Int.toNat_of_nonneg h0]
    · rw [if_neg (by omega), if_pos h0, uniformMoment_out _ _ _ _ (by omega)]
  · rw [if_neg (by omega), if_neg h0]

end Newt
