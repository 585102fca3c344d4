import Verif.Model.ClebschGordan
import Verif.Spec.ClebschGordan

/-! # Lemmas about the Clebsch-Gordan routines -/

namespace Newt

open Spec

theorem fct_pos (n : ℤ) : 0 < fct n := by
  rw [fct]; exact_mod_cast Nat.factorial_pos _

theorem fct_ne_zero (n : ℤ) : fct n ≠ 0 := (fct_pos n).ne'

theorem exp_gammaln (x : ℝ) (n : ℤ) (hn : 0 ≤ n) (hx : x = n + 1) :
    Real.exp (gammaln x) = fct n := by
  have h1 : x = (n.toNat : ℝ) + 1 := by
    rw [hx]
    have : ((n.toNat : ℤ) : ℝ) = (n : ℝ) := by rw [Int.toNat_of_nonneg hn]
    rw [← this, Int.cast_natCast]
  have h2 : (0 : ℝ) < n.toNat.factorial := by exact_mod_cast Nat.factorial_pos _
  rw [gammaln, h1, Real.Gamma_nat_eq_factorial, abs_of_pos h2, Real.exp_log h2, fct]

/-- The hypotheses the checks of `cgCoeff` guarantee. -/
structure CGOk (j1 j2 m1 m2 J M : ℤ) : Prop where
  h1 : 0 ≤ J + j1 - j2
  h2 : 0 ≤ J - j1 + j2
  h3 : 0 ≤ j1 + j2 - J
  h4 : 0 ≤ j1 - m1
  h5 : 0 ≤ j1 + m1
  h6 : 0 ≤ j2 - m2
  h7 : 0 ≤ j2 + m2
  h8 : 0 ≤ J + M
  h9 : 0 ≤ J - M
  h10 : M = m1 + m2

theorem cgBody_eq {j1 j2 m1 m2 J M : ℤ} (h : CGOk j1 j2 m1 m2 J M) :
    cgBody j1 j2 m1 m2 J M = racah j1 j2 m1 m2 J M := by
  obtain ⟨h1, h2, h3, h4, h5, h6, h7, h8, h9, h10⟩ := h
  rw [cgBody, racah]
  congr 1
  · congr 1
    · congr 1
      rw [Real.exp_add, Real.exp_add, Real.exp_sub,
        exp_gammaln _ (J + j1 - j2) h1 (by push_cast; ring),
        exp_gammaln _ (J - j1 + j2) h2 (by push_cast; ring),
        exp_gammaln _ (j1 + j2 - J) h3 (by push_cast; ring),
        exp_gammaln _ (j1 + j2 + J + 1) (by omega) (by push_cast; ring)]
      ring
    · congr 1
      rw [Real.exp_add, Real.exp_add, Real.exp_add, Real.exp_add, Real.exp_add,
        exp_gammaln _ (J + M) h8 (by push_cast; ring),
        exp_gammaln _ (J - M) h9 (by push_cast; ring),
        exp_gammaln _ (j1 - m1) h4 (by push_cast; ring),
        exp_gammaln _ (j1 + m1) h5 (by push_cast; ring),
        exp_gammaln _ (j2 - m2) h6 (by push_cast; ring),
        exp_gammaln _ (j2 + m2) h7 (by push_cast; ring)]
  · apply Finset.sum_subset_zero_on_sdiff
    · intro k hk
      rw [Finset.mem_Icc] at *
      omega
    · intro k hk
      rw [Finset.mem_sdiff, Finset.mem_Icc, Finset.mem_Icc] at hk
      have : j1 - m1 - k < 0 ∨ j2 + m2 - k < 0 ∨ J - j2 + m1 + k < 0 ∨ J - j1 - m2 + k < 0 := by
        omega
      rcases this with h | h | h | h
      · rw [invFct, invFct, invFct, if_pos h]; ring
      · rw [invFct, invFct, invFct, invFct, if_pos h]; ring
      · rw [show invFct (J - j2 + m1 + k) = 0 by rw [invFct, if_pos h]]; ring
      · rw [show invFct (J - j1 - m2 + k) = 0 by rw [invFct, if_pos h]]; ring
    · intro k hk
      rw [Finset.mem_Icc] at hk
      rw [Real.exp_add, Real.exp_add, Real.exp_add, Real.exp_add, Real.exp_add,
        exp_gammaln _ k (by omega) (by push_cast; ring),
        exp_gammaln _ (j1 + j2 - J - k) (by omega) (by push_cast; ring),
        exp_gammaln _ (j1 - m1 - k) (by omega) (by push_cast; ring),
        exp_gammaln _ (j2 + m2 - k) (by omega) (by push_cast; ring),
        exp_gammaln _ (J - j2 + m1 + k) (by omega) (by push_cast; ring),
        exp_gammaln _ (J - j1 - m2 + k) (by omega) (by push_cast; ring)]
      simp only [invFct]
      rw [if_neg (by omega), if_neg (by omega), if_neg (by omega), if_neg (by omega),
        if_neg (by omega), if_neg (by omega)]
      have := fct_ne_zero
      field_simp

/-- Symmetry of the Racah sum under reversal of all magnetic numbers. -/
theorem racah_neg (j1 j2 m1 m2 J M : ℤ) :
    racah j1 j2 (-m1) (-m2) J (-M) = (-1) ^ (J - j1 - j2) * racah j1 j2 m1 m2 J M := by
  have hsum : (∑ k ∈ Finset.Icc 0 (j1 + j2 - J), (-1 : ℝ) ^ k * (invFct k * invFct (j1 + j2 - J - k)
      * invFct (j1 - -m1 - k) * invFct (j2 + -m2 - k)
      * invFct (J - j2 + -m1 + k) * invFct (J - j1 - -m2 + k))) = (-1) ^ (J - j1 - j2) *
      ∑ k ∈ Finset.Icc 0 (j1 + j2 - J), (-1 : ℝ) ^ k * (invFct k * invFct (j1 + j2 - J - k)
      * invFct (j1 - m1 - k) * invFct (j2 + m2 - k)
      * invFct (J - j2 + m1 + k) * invFct (J - j1 - m2 + k)) := by
    rw [Finset.mul_sum]
    refine Finset.sum_bij' (fun k _ => j1 + j2 - J - k) (fun k _ => j1 + j2 - J - k) ?_ ?_ ?_ ?_ ?_
    · intro k hk; rw [Finset.mem_Icc] at *; omega
    · intro k hk; rw [Finset.mem_Icc] at *; omega
    · intro k _; ring
    · intro k _; ring
    · intro k _
      have e : (-1 : ℝ) ^ (J - j1 - j2) * (-1) ^ (j1 + j2 - J - k) = (-1) ^ k := by
        rw [← zpow_add₀ (by norm_num), show J - j1 - j2 + (j1 + j2 - J - k) = -k by ring, zpow_neg,
          ← inv_zpow]
        norm_num
      rw [← mul_assoc ((-1 : ℝ) ^ (J - j1 - j2)), e]
      congr 1
      rw [show j1 + j2 - J - (j1 + j2 - J - k) = k by ring,
        show j1 - m1 - (j1 + j2 - J - k) = J - j2 + -m1 + k by ring,
        show j2 + m2 - (j1 + j2 - J - k) = J - j1 - -m2 + k by ring,
        show J - j2 + m1 + (j1 + j2 - J - k) = j1 - -m1 - k by ring,
        show J - j1 - m2 + (j1 + j2 - J - k) = j2 + -m2 - k by ring]
      ring
  rw [racah, hsum, racah]
  rw [show J + -M = J - M by ring, show J - -M = J + M by ring, show j1 - -m1 = j1 + m1 by ring,
    show j1 + -m1 = j1 - m1 by ring, show j2 - -m2 = j2 + m2 by ring,
    show j2 + -m2 = j2 - m2 by ring]
  rw [show fct (J - M) * fct (J + M) * (fct (j1 + m1) * fct (j1 - m1)) *
      (fct (j2 + m2) * fct (j2 - m2)) = fct (J + M) * fct (J - M) * (fct (j1 - m1) * fct (j1 + m1)) *
      (fct (j2 - m2) * fct (j2 + m2)) by ring]
  ring

theorem neg_one_sq_zpow (n : ℤ) : (-1 : ℝ) ^ n * (-1) ^ n = 1 := by
  rw [← mul_zpow]; norm_num

theorem cgok_of_valid {j1 j2 m1 m2 J M : ℤ} (h : CGValid j1 j2 m1 m2 J M) :
    CGOk j1 j2 m1 m2 J M := by
  obtain ⟨a, b, c, d, e, f⟩ := h
  rw [abs_le] at a b c d
  constructor <;> omega

theorem cgok_neg {j1 j2 m1 m2 J M : ℤ} (h : CGOk j1 j2 m1 m2 J M) :
    CGOk j1 j2 (-m1) (-m2) J (-M) := by
  obtain ⟨h1, h2, h3, h4, h5, h6, h7, h8, h9, h10⟩ := h
  constructor <;> omega

/-- `cgCoeff` is Racah's formula on valid arguments. -/
theorem cgCoeff_valid {j1 j2 m1 m2 J M : ℤ} (h : CGValid j1 j2 m1 m2 J M) :
    cgCoeff j1 j2 m1 m2 J M = racah j1 j2 m1 m2 J M := by
  have ok := cgok_of_valid h
  obtain ⟨a, b, c, d, e, f⟩ := h
  rw [cgCoeff, if_neg (by rintro (h | h | h) <;> omega), if_neg (by rintro (h | h) <;> omega)]
  simp only [if_pos f, one_mul]
  split_ifs with hM
  · rw [cgBody_eq (cgok_neg ok), racah_neg, ← mul_assoc, neg_one_sq_zpow, one_mul]
  · rw [cgBody_eq ok]

/-- Selection rules of `cgCoeff`. -/
theorem cgCoeff_invalid {j1 j2 m1 m2 J M : ℤ} (h : ¬ CGValid j1 j2 m1 m2 J M) :
    cgCoeff j1 j2 m1 m2 J M = 0 := by
  rw [cgCoeff]
  by_cases h1 : j1 < |m1| ∨ j2 < |m2| ∨ J < |M|
  · rw [if_pos h1]
  by_cases h2 : J > j1 + j2 ∨ J < |j1 - j2|
  · rw [if_neg h1, if_pos h2]
  have : M ≠ m1 + m2 := by
    intro e; apply h
    push Not at h1 h2
    exact ⟨h1.1, h1.2.1, h1.2.2, h2.2, h2.1, e⟩
  simp only [if_neg h1, if_neg h2, if_neg this, zero_mul, ite_self]

/-! ## `cgCoeff2` -/

theorem spComb_eq (n k : ℤ) (h0 : 0 ≤ k) (h1 : k ≤ n) :
    spComb n k = fct n / (fct k * fct (n - k)) := by
  have : n.toNat - k.toNat = (n - k).toNat := by omega
  rw [spComb, if_pos ⟨h0, h1⟩, Nat.cast_choose ℝ (by omega), this]
  rfl

theorem cgBody2_eq {j1 j2 m1 m2 J M : ℤ} (h : CGOk j1 j2 m1 m2 J M) :
    cgBody2 j1 j2 m1 m2 J M = cgBody j1 j2 m1 m2 J M := by
  obtain ⟨h1, h2, h3, h4, h5, h6, h7, h8, h9, h10⟩ := h
  have hp := fct_pos
  have hne := fct_ne_zero
  set P := fct (J + j1 - j2) * fct (J - j1 + j2) * fct (j1 + j2 - J) with hP
  have hPpos : 0 < P := by have := hp (J + j1 - j2); have := hp (J - j1 + j2)
                           have := hp (j1 + j2 - J); positivity
  have e2 : Real.sqrt
    (spComb (2 * j1) (j1 - j2 + J) * spComb (2 * j2) (j1 + j2 - J) * spComb (2 * J) (-j1 + j2 + J)
      / (spComb (2 * j1) (j1 + m1) * spComb (2 * j2) (j2 + m2) * spComb (2 * J) (J + M))) =
      Real.sqrt (Real.exp
    (gammaln (J + M + 1) + gammaln (J - M + 1)
      + (gammaln (j1 - m1 + 1) + gammaln (j1 + m1 + 1))
      + (gammaln (j2 - m2 + 1) + gammaln (j2 + m2 + 1)))) / P := by
    rw [eq_div_iff hPpos.ne', ← Real.sqrt_sq hPpos.le, ← Real.sqrt_mul']
    · congr 1
      rw [spComb_eq _ _ (by omega) (by omega), spComb_eq _ _ (by omega) (by omega),
        spComb_eq _ _ (by omega) (by omega), spComb_eq _ _ (by omega) (by omega),
        spComb_eq _ _ (by omega) (by omega), spComb_eq _ _ (by omega) (by omega)]
      rw [Real.exp_add, Real.exp_add, Real.exp_add, Real.exp_add, Real.exp_add,
        exp_gammaln _ (J + M) h8 (by push_cast; ring),
        exp_gammaln _ (J - M) h9 (by push_cast; ring),
        exp_gammaln _ (j1 - m1) h4 (by push_cast; ring),
        exp_gammaln _ (j1 + m1) h5 (by push_cast; ring),
        exp_gammaln _ (j2 - m2) h6 (by push_cast; ring),
        exp_gammaln _ (j2 + m2) h7 (by push_cast; ring)]
      rw [show 2 * j1 - (j1 - j2 + J) = j1 + j2 - J by ring,
        show 2 * j2 - (j1 + j2 - J) = J - j1 + j2 by ring,
        show 2 * J - (-j1 + j2 + J) = J + j1 - j2 by ring,
        show j1 - j2 + J = J + j1 - j2 by ring, show -j1 + j2 + J = J - j1 + j2 by ring,
        show 2 * j1 - (j1 + m1) = j1 - m1 by ring, show 2 * j2 - (j2 + m2) = j2 - m2 by ring,
        show 2 * J - (J + M) = J - M by ring, hP]
      have a1 := hne (2 * j1)
      have a2 := hne (2 * j2)
      have a3 := hne (2 * J)
      have a4 := hne (J + j1 - j2)
      have a5 := hne (J - j1 + j2)
      have a6 := hne (j1 + j2 - J)
      have a7 := hne (j1 + m1)
      have a8 := hne (j1 - m1)
      have a9 := hne (j2 + m2)
      have a10 := hne (j2 - m2)
      have a11 := hne (J + M)
      have a12 := hne (J - M)
      field_simp
    · positivity
  have e3 : ∀ (a b : ℤ), (∑ k ∈ Finset.Icc a b,
      if 0 ≤ k ∧ k ≤ j1 + j2 - J ∧ k ≤ j1 - m1 ∧ k ≤ j2 + m2 ∧ 0 ≤ J - j2 + m1 + k ∧
        0 ≤ J - j1 - m2 + k then
      spComb (j1 + j2 - J) k * spComb (j1 - j2 + J) (j1 - m1 - k)
      * spComb (-j1 + j2 + J) (j2 + m2 - k) * (-1 : ℝ) ^ k else 0) =
      P * ∑ k ∈ Finset.Icc a b,
      if 0 ≤ k ∧ k ≤ j1 + j2 - J ∧ k ≤ j1 - m1 ∧ k ≤ j2 + m2 ∧ 0 ≤ J - j2 + m1 + k ∧
        0 ≤ J - j1 - m2 + k then ((-1 : ℝ) ^ k) / Real.exp
      (gammaln (k + 1) + gammaln (j1 + j2 - J - k + 1)
        + (gammaln (j1 - m1 - k + 1) + gammaln (j2 + m2 - k + 1))
        + (gammaln (J - j2 + m1 + k + 1) + gammaln (J - j1 - m2 + k + 1))) else 0 := by
    intro a b
    rw [Finset.mul_sum]
    apply Finset.sum_congr rfl
    intro k _
    split_ifs with hk
    · rw [Real.exp_add, Real.exp_add, Real.exp_add, Real.exp_add, Real.exp_add,
        exp_gammaln _ k (by omega) (by push_cast; ring),
        exp_gammaln _ (j1 + j2 - J - k) (by omega) (by push_cast; ring),
        exp_gammaln _ (j1 - m1 - k) (by omega) (by push_cast; ring),
        exp_gammaln _ (j2 + m2 - k) (by omega) (by push_cast; ring),
        exp_gammaln _ (J - j2 + m1 + k) (by omega) (by push_cast; ring),
        exp_gammaln _ (J - j1 - m2 + k) (by omega) (by push_cast; ring),
        spComb_eq _ _ (by omega) (by omega), spComb_eq _ _ (by omega) (by omega),
        spComb_eq _ _ (by omega) (by omega),
        show j1 - j2 + J - (j1 - m1 - k) = J - j2 + m1 + k by ring,
        show -j1 + j2 + J - (j2 + m2 - k) = J - j1 - m2 + k by ring,
        show j1 - j2 + J = J + j1 - j2 by ring, show -j1 + j2 + J = J - j1 + j2 by ring, hP]
      have a1 := hne k
      have a2 := hne (j1 + j2 - J - k)
      have a3 := hne (j1 - m1 - k)
      have a4 := hne (j2 + m2 - k)
      have a5 := hne (J - j2 + m1 + k)
      have a6 := hne (J - j1 - m2 + k)
      field_simp
    · ring
  rw [cgBody2, cgBody]
  rw [e2, mul_assoc, mul_assoc, div_mul_eq_mul_div, mul_div_assoc]
  congr 2
  rw [div_eq_iff hPpos.ne']
  have hkm : max (max 0 (j2 - J - m1)) (j1 - J + m2) = max (max 0 (j2 - m1 - J)) (j1 + m2 - J) := by
    omega
  rw [hkm]
  have e4 := e3 (max (max 0 (j2 - m1 - J)) (j1 + m2 - J)) (min (min (j1 + j2 - J) (j1 - m1)) (j2 + m2))
  rw [mul_comm]
  refine Eq.trans ?_ (e4.trans ?_)
  · apply Finset.sum_congr rfl
    intro k hk
    rw [Finset.mem_Icc] at hk
    rw [if_pos (by omega)]
  · congr 1
    apply Finset.sum_congr rfl
    intro k hk
    rw [Finset.mem_Icc] at hk
    rw [if_pos (by omega)]

theorem cgCoeff2_eq (j1 j2 m1 m2 J M : ℤ) :
    cgCoeff2 j1 j2 m1 m2 J M = cgCoeff j1 j2 m1 m2 J M := by
  rw [cgCoeff2, cgCoeff]
  by_cases h1 : j1 < |m1| ∨ j2 < |m2| ∨ J < |M|
  · simp only [if_pos h1]
  by_cases h2 : J > j1 + j2 ∨ J < |j1 - j2|
  · simp only [if_neg h1, if_pos h2]
  simp only [if_neg h1, if_neg h2]
  by_cases h3 : M = m1 + m2
  · have ok : CGOk j1 j2 m1 m2 J M := by
      apply cgok_of_valid
      push Not at h1 h2
      exact ⟨h1.1, h1.2.1, h1.2.2, h2.2, h2.1, h3⟩
    rw [cgBody2_eq ok, cgBody2_eq (cgok_neg ok)]
  · simp [h3]

/-! ## Single-term closed forms -/

theorem invFct_eq {n : ℤ} (h : 0 ≤ n) : invFct n = 1 / fct n := by rw [invFct, if_neg (by omega)]

theorem fct_zero : fct 0 = 1 := by simp [fct]

theorem fct_succ (n : ℤ) (h : 0 ≤ n) : fct (n + 1) = (n + 1) * fct n := by
  have h1 : (n + 1).toNat = n.toNat + 1 := by omega
  have h2 : ((n.toNat : ℤ) : ℝ) = (n : ℝ) := by rw [Int.toNat_of_nonneg h]
  rw [fct, h1, Nat.factorial_succ, fct]
  push_cast
  rw [← h2, Int.cast_natCast]

/-- The stretched coefficient `J = j1 + j2`. -/
theorem racah_stretched (j1 j2 m1 m2 : ℤ) (h1 : |m1| ≤ j1) (h2 : |m2| ≤ j2) :
    racah j1 j2 m1 m2 (j1 + j2) (m1 + m2) =
      Real.sqrt (fct (2 * j1) * fct (2 * j2) / fct (2 * (j1 + j2)) *
        (fct (j1 + j2 + (m1 + m2)) * fct (j1 + j2 - (m1 + m2)) /
          (fct (j1 + m1) * fct (j1 - m1) * (fct (j2 + m2) * fct (j2 - m2))))) := by
  have hp := fct_pos
  rw [abs_le] at h1 h2
  rw [racah]
  rw [show j1 + j2 - (j1 + j2) = 0 by ring, Finset.Icc_self, Finset.sum_singleton]
  rw [invFct_eq le_rfl, invFct_eq (by omega), invFct_eq (by omega), invFct_eq (by omega),
    invFct_eq (by omega), invFct_eq (by omega)]
  rw [show j1 + j2 + j1 - j2 = 2 * j1 by ring, show j1 + j2 - j1 + j2 = 2 * j2 by ring,
    show j1 + j2 + (j1 + j2) + 1 = 2 * (j1 + j2) + 1 by ring, fct_succ _ (by omega),
    show j1 + j2 - j2 + m1 + 0 = j1 + m1 by ring, show j1 + j2 - j1 - m2 + 0 = j2 - m2 by ring]
  simp only [sub_zero, fct_zero, zpow_zero, one_mul, div_one, mul_one]
  set D := fct (j1 + m1) * fct (j1 - m1) * (fct (j2 + m2) * fct (j2 - m2)) with hD
  have hDp : 0 < D := by
    have := hp (j1 + m1); have := hp (j1 - m1); have := hp (j2 + m2); have := hp (j2 - m2)
    positivity
  have e : 1 / fct (j1 - m1) * (1 / fct (j2 + m2)) * (1 / fct (j1 + m1)) * (1 / fct (j2 - m2)) =
      Real.sqrt (1 / D ^ 2) := by
    rw [Real.sqrt_div' _ (sq_nonneg D), Real.sqrt_one, Real.sqrt_sq hDp.le, hD]
    have := hp (j1 + m1); have := hp (j1 - m1); have := hp (j2 + m2); have := hp (j2 - m2)
    field_simp
  rw [e, ← Real.sqrt_mul', ← Real.sqrt_mul']
  · congr 1
    rw [show fct (j1 - m1) * fct (j1 + m1) = fct (j1 + m1) * fct (j1 - m1) by ring,
      show fct (j2 - m2) * fct (j2 + m2) = fct (j2 + m2) * fct (j2 - m2) by ring, mul_assoc _ (fct (j1 + m1) * fct (j1 - m1)), ← hD]
    have hJ : ((2 * (j1 + j2) : ℤ) : ℝ) + 1 ≠ 0 := by
      have : (0 : ℝ) ≤ ((2 * (j1 + j2) : ℤ) : ℝ) := by exact_mod_cast (by omega)
      positivity
    have hK := (hp (2 * (j1 + j2))).ne'
    rw [show (2 * ((j1 + j2 : ℤ) : ℝ) + 1) = ((2 * (j1 + j2) : ℤ) : ℝ) + 1 by push_cast; ring]
    field_simp
  · positivity
  · have := hp (j1 + m1); have := hp (j1 - m1); have := hp (j2 + m2); have := hp (j2 - m2)
    have := hp (j1 + j2 + (m1 + m2)); have := hp (j1 + j2 - (m1 + m2))
    positivity

/-- The anti-stretched coefficient `J = j2 - j1`. -/
theorem racah_antistretched (j1 j2 m1 m2 : ℤ) (h1 : |m1| ≤ j1) (h2 : |m2| ≤ j2) (h12 : j1 ≤ j2)
    (hM : |m1 + m2| ≤ j2 - j1) :
    racah j1 j2 m1 m2 (j2 - j1) (m1 + m2) = (-1) ^ (j1 - m1) *
      Real.sqrt (fct (2 * (j2 - j1) + 1) * fct (2 * j1) / fct (2 * j2 + 1) *
        (fct (j2 + m2) * fct (j2 - m2) /
          (fct (j1 + m1) * fct (j1 - m1) *
            (fct (j2 - j1 + (m1 + m2)) * fct (j2 - j1 - (m1 + m2)))))) := by
  have hp := fct_pos
  rw [abs_le] at h1 h2 hM
  rw [racah, Finset.sum_eq_single (j1 - m1)]
  · rw [invFct_eq (by omega), invFct_eq (by omega), invFct_eq (by omega), invFct_eq (by omega),
      invFct_eq (by omega), invFct_eq (by omega)]
    rw [show j2 - j1 + j1 - j2 = 0 by ring, show j2 - j1 - j1 + j2 = 2 * (j2 - j1) by ring,
      show j1 + j2 - (j2 - j1) = 2 * j1 by ring, show 2 * j1 - (j1 - m1) = j1 + m1 by ring,
      show j1 - m1 - (j1 - m1) = 0 by ring, show j2 - j1 - j2 + m1 + (j1 - m1) = 0 by ring,
      show j2 - j1 - j1 - m2 + (j1 - m1) = j2 - j1 - (m1 + m2) by ring,
      show j2 + m2 - (j1 - m1) = j2 - j1 + (m1 + m2) by ring,
      show j1 + j2 + (j2 - j1) + 1 = 2 * j2 + 1 by ring, fct_zero,
      fct_succ (2 * (j2 - j1)) (by omega)]
    simp only [one_mul, div_one, mul_one]
    set D := fct (j1 + m1) * fct (j1 - m1) *
            (fct (j2 - j1 + (m1 + m2)) * fct (j2 - j1 - (m1 + m2))) with hD
    have q1 := hp (j1 + m1)
    have q2 := hp (j1 - m1)
    have q3 := hp (j2 - j1 + (m1 + m2))
    have q4 := hp (j2 - j1 - (m1 + m2))
    have q5 := hp (j2 + m2)
    have q6 := hp (j2 - m2)
    have hDp : 0 < D := by positivity
    have e : 1 / fct (j1 - m1) * (1 / fct (j1 + m1)) * (1 / fct (j2 - j1 + (m1 + m2))) *
        (1 / fct (j2 - j1 - (m1 + m2))) = Real.sqrt (1 / D ^ 2) := by
      rw [Real.sqrt_div' _ (sq_nonneg D), Real.sqrt_one, Real.sqrt_sq hDp.le, hD]
      field_simp
    rw [e, mul_left_comm, ← Real.sqrt_mul', ← Real.sqrt_mul']
    · congr 2
      rw [show fct (j2 - j1 + (m1 + m2)) * fct (j2 - j1 - (m1 + m2)) * (fct (j1 - m1) * fct (j1 + m1))
        * (fct (j2 - m2) * fct (j2 + m2)) = D * (fct (j2 + m2) * fct (j2 - m2)) by rw [hD]; ring]
      have hK := (hp (2 * j2 + 1)).ne'
      push_cast
      field_simp
    · positivity
    · positivity
  · intro k _ hk
    have : j1 - m1 - k < 0 ∨ j2 - j1 - j2 + m1 + k < 0 := by omega
    rcases this with h | h
    · rw [show invFct (j1 - m1 - k) = 0 by rw [invFct, if_pos h]]; ring
    · rw [show invFct (j2 - j1 - j2 + m1 + k) = 0 by rw [invFct, if_pos h]]; ring
  · intro h
    exact absurd (Finset.mem_Icc.2 ⟨by omega, by omega⟩) h

end Newt
