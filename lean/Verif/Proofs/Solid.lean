import Verif.Spec.Solid
import Mathlib.Algebra.Polynomial.Reverse
import Mathlib.Algebra.Polynomial.Eval.Degree
import Mathlib.Tactic

/-! # Lemmas about the polynomial solid harmonics -/

namespace Newt

open Polynomial

theorem zc_nat (p : ℂ[X]) (k : ℕ) : zc p k = p.coeff k := by simp [zc]

theorem zc_neg (p : ℂ[X]) {k : ℤ} (h : k < 0) : zc p k = 0 := by
  simp [zc, not_le.2 h]

theorem zc_big (p : ℂ[X]) {N : ℕ} (hp : p.natDegree ≤ N) {k : ℤ} (h : N < k) : zc p k = 0 := by
  rw [zc, if_pos (by omega)]
  exact coeff_eq_zero_of_natDegree_lt (by omega)

theorem zc_add (p q : ℂ[X]) (k : ℤ) : zc (p + q) k = zc p k + zc q k := by
  unfold zc; split_ifs <;> simp

theorem zc_sum {ι : Type*} (s : Finset ι) (f : ι → ℂ[X]) (k : ℤ) :
    zc (∑ i ∈ s, f i) k = ∑ i ∈ s, zc (f i) k := by
  unfold zc; split_ifs <;> simp

theorem zc_C_mul (c : ℂ) (p : ℂ[X]) (k : ℤ) : zc (C c * p) k = c * zc p k := by
  unfold zc; split_ifs <;> simp

theorem zc_smul (c : ℂ) (p : ℂ[X]) (k : ℤ) : zc (c • p) k = c * zc p k := by
  unfold zc; split_ifs <;> simp

theorem zc_zero (k : ℤ) : zc 0 k = 0 := by unfold zc; split_ifs <;> simp

/-- Coefficient of a product as a sum over integer indices. -/
theorem zc_mul (p q : ℂ[X]) {N : ℕ} (hp : p.natDegree ≤ N) (k : ℤ) :
    zc (p * q) k = ∑ i ∈ Finset.Icc (0 : ℤ) N, zc p i * zc q (k - i) := by
  have key : ∑ i ∈ Finset.Icc (0 : ℤ) N, zc p i * zc q (k - i) =
      ∑ i ∈ Finset.range (N + 1), p.coeff i * zc q (k - i) := by
    symm
    refine Finset.sum_bij (fun (i : ℕ) _ => (i : ℤ)) ?_ ?_ ?_ ?_
    · intro a ha; simp only [Finset.mem_range, Finset.mem_Icc] at *; omega
    · intro a _ b _ h; exact_mod_cast h
    · intro b hb
      simp only [Finset.mem_range, Finset.mem_Icc] at *
      exact ⟨b.toNat, by omega, by omega⟩
    · intro a _; rw [zc_nat]
  rw [key]
  by_cases hk : k < 0
  · rw [zc_neg _ hk]
    symm
    apply Finset.sum_eq_zero
    intro i _
    rw [zc_neg q (by omega), mul_zero]
  · obtain ⟨n, rfl⟩ := Int.eq_ofNat_of_zero_le (not_lt.1 hk)
    rw [zc_nat, coeff_mul, Finset.Nat.sum_antidiagonal_eq_sum_range_succ_mk]
    -- compare range (n+1) and range (N+1)
    have h1 : ∑ i ∈ Finset.range (n + 1), p.coeff i * q.coeff (n - i) =
        ∑ i ∈ Finset.range (n + 1 + (N + 1)), p.coeff i * zc q ((n : ℤ) - i) := by
      rw [Finset.sum_range_add _ (n + 1) (N + 1), Finset.sum_eq_zero (s := Finset.range (N + 1)), add_zero]
      · apply Finset.sum_congr rfl
        intro i hi
        rw [Finset.mem_range] at hi
        rw [show (n : ℤ) - i = ((n - i : ℕ) : ℤ) by omega, zc_nat]
      · intro i _
        rw [zc_neg q (by push_cast; omega), mul_zero]
    have h2 : ∑ i ∈ Finset.range (N + 1), p.coeff i * zc q ((n : ℤ) - i) =
        ∑ i ∈ Finset.range (N + 1 + (n + 1)), p.coeff i * zc q ((n : ℤ) - i) := by
      rw [Finset.sum_range_add _ (N + 1) (n + 1), Finset.sum_eq_zero (s := Finset.range (n + 1)), add_zero]
      intro i _
      rw [coeff_eq_zero_of_natDegree_lt (by omega), zero_mul]
    rw [h1, h2, add_comm (n + 1)]

theorem uPoly_natDegree (v : V3) : (uPoly v).natDegree ≤ 2 := by
  unfold uPoly; compute_degree

theorem uPoly_pow_natDegree (v : V3) (l : ℕ) : (uPoly v ^ l).natDegree ≤ 2 * l := by
  refine natDegree_pow_le.trans ?_
  rw [mul_comm]; exact Nat.mul_le_mul_right _ (uPoly_natDegree v)

theorem uPoly_add (v w : V3) : uPoly (v + w) = uPoly v + uPoly w := by
  simp only [uPoly, Pi.add_apply, Complex.ofReal_add]
  simp only [sub_eq_add_neg, neg_add_rev, add_div, C_add, mul_add]
  ring_nf

theorem uPoly_smul (c : ℝ) (v : V3) : uPoly (c • v) = C (c : ℂ) * uPoly v := by
  simp only [uPoly, Pi.smul_apply, smul_eq_mul, Complex.ofReal_mul, mul_add, ← mul_assoc, ← C_mul]
  congr 3 <;> ring_nf

theorem uPoly_neg (v : V3) : uPoly (-v) = -uPoly v := by
  have := uPoly_smul (-1) v
  simpa using this

/-- The harmonics vanish outside `|m| <= l`. -/
theorem Rsol_out (l : ℕ) (m : ℤ) (v : V3) (h : (l : ℤ) < |m|) : Rsol l m v = 0 := by
  unfold Rsol
  rcases abs_cases m with ⟨e, _⟩ | ⟨e, _⟩
  · rw [zc_big _ (uPoly_pow_natDegree v l) (by push_cast; omega), zero_div]
  · rw [zc_neg _ (by omega), zero_div]

theorem Rsol_zero_zero (v : V3) : Rsol 0 0 v = 1 := by
  simp [Rsol, zc]

theorem Rsol_at_zero (l : ℕ) (hl : l ≠ 0) (m : ℤ) : Rsol l m 0 = 0 := by
  have : uPoly 0 = 0 := by simp [uPoly]
  simp [Rsol, this, hl, zc_zero]

/-- Homogeneity. -/
theorem Rsol_smul (l : ℕ) (m : ℤ) (c : ℝ) (v : V3) :
    Rsol l m (c • v) = (c : ℂ) ^ l * Rsol l m v := by
  rw [Rsol, Rsol, uPoly_smul, mul_pow, ← C_pow, zc_C_mul, mul_div_assoc]

/-- The addition theorem. -/
theorem Rsol_add (L : ℕ) (M : ℤ) (v w : V3) :
    Rsol L M (v + w) = ∑ l ∈ Finset.range (L + 1), ∑ m ∈ Finset.Icc (-(l : ℤ)) l,
      Rsol l m v * Rsol (L - l) (M - m) w := by
  rw [Rsol, uPoly_add, add_pow, zc_sum, Finset.sum_div]
  apply Finset.sum_congr rfl
  intro l hl
  rw [Finset.mem_range] at hl
  have hl' : l ≤ L := by omega
  rw [mul_comm _ ((L.choose l : ℂ[X])), ← C_eq_natCast, zc_C_mul,
    zc_mul _ _ (uPoly_pow_natDegree v l), mul_div_right_comm, Finset.mul_sum]
  refine Finset.sum_bij (fun i _ => i - (l : ℤ)) ?_ ?_ ?_ ?_
  · intro i hi; simp only [Finset.mem_Icc] at *; push_cast at hi; omega
  · intro a _ b _ h; omega
  · intro b hb
    simp only [Finset.mem_Icc] at *
    exact ⟨b + l, by push_cast; omega, by omega⟩
  · intro i _
    simp only [Rsol]
    have hc : ((L.choose l : ℂ)) / (L.factorial : ℂ) =
        1 / (l.factorial : ℂ) * (1 / ((L - l).factorial : ℂ)) := by
      have h1 : ((l.factorial : ℂ)) ≠ 0 := by exact_mod_cast l.factorial_ne_zero
      have h2 : (((L - l).factorial : ℂ)) ≠ 0 := by exact_mod_cast (L - l).factorial_ne_zero
      have h3 : ((L.factorial : ℂ)) ≠ 0 := by exact_mod_cast L.factorial_ne_zero
      field_simp
      have := Nat.choose_mul_factorial_mul_factorial hl'
      have : (L.choose l : ℂ) * l.factorial * (L - l).factorial = L.factorial := by
        exact_mod_cast this
      linear_combination this
    have e1 : (l : ℤ) + (i - l) = i := by ring
    have e2 : ((L - l : ℕ) : ℤ) + (M - (i - l)) = L + M - i := by omega
    rw [hc, e1, e2]
    ring

/-! ## Complex conjugation -/

theorem reflect_pow (p : ℂ[X]) (hp : p.natDegree ≤ 2) : ∀ l : ℕ,
    reflect (2 * l) (p ^ l) = reflect 2 p ^ l
  | 0 => by
    simp
  | l + 1 => by
    rw [pow_succ, pow_succ, ← reflect_pow p hp l, show 2 * (l + 1) = 2 * l + 2 by ring]
    apply reflect_mul
    · refine natDegree_pow_le.trans ?_
      rw [mul_comm]; exact Nat.mul_le_mul_right _ hp
    · exact hp

theorem zc_reflect (p : ℂ[X]) (N : ℕ) (hp : p.natDegree ≤ N) (k : ℤ) :
    zc (reflect N p) k = zc p (N - k) := by
  by_cases h0 : k < 0
  · rw [zc_neg _ h0, zc_big _ hp (by omega)]
  obtain ⟨n, rfl⟩ := Int.eq_ofNat_of_zero_le (not_lt.1 h0)
  rw [zc_nat, coeff_reflect]
  by_cases h : n ≤ N
  · rw [revAt_le h, show (N : ℤ) - n = ((N - n : ℕ) : ℤ) by omega, zc_nat]
  · rw [revAt_eq_self_of_lt (by omega), zc_neg _ (by omega),
      coeff_eq_zero_of_natDegree_lt (by omega)]

theorem zc_comp_neg_X (p : ℂ[X]) (k : ℤ) : zc (p.comp (-X)) k = (-1) ^ k * zc p k := by
  by_cases h0 : k < 0
  · rw [zc_neg _ h0, zc_neg _ h0, mul_zero]
  obtain ⟨n, rfl⟩ := Int.eq_ofNat_of_zero_le (not_lt.1 h0)
  rw [zc_nat, zc_nat, show (-X : ℂ[X]) = C (-1) * X by simp, comp_C_mul_X_coeff, zpow_natCast,
    mul_comm]

/-- conjugate all coefficients -/
noncomputable abbrev cj (p : ℂ[X]) : ℂ[X] := p.map (starRingEnd ℂ)

theorem zc_cj (p : ℂ[X]) (k : ℤ) : zc (cj p) k = (starRingEnd ℂ) (zc p k) := by
  unfold zc; split_ifs <;> simp

theorem uPoly_conj (v : V3) : (reflect 2 (uPoly v)).comp (-X) = -cj (uPoly v) := by
  have h : reflect 2 (uPoly v) = C (((v 0 : ℂ) + Complex.I * v 1) / 2) * X ^ 2 + C (v 2 : ℂ) * X
      + C (-((v 0 : ℂ) - Complex.I * v 1) / 2) := by
    rw [uPoly, reflect_add, reflect_add]
    have e1 := reflect_C_mul_X_pow 2 2 (c := -((v 0 : ℂ) - Complex.I * v 1) / 2)
    have e2 := reflect_C_mul_X_pow 2 1 (c := (v 2 : ℂ))
    have e3 := reflect_C_mul_X_pow 2 0 (c := ((v 0 : ℂ) + Complex.I * v 1) / 2)
    simp only [pow_one, pow_zero, mul_one] at e1 e2 e3
    rw [e1, e2, e3]
    have r1 : revAt 2 2 = 0 := by rw [revAt_le (le_refl _)]
    have r2 : revAt 2 1 = 1 := by rw [revAt_le (by norm_num)]
    have r3 : revAt 2 0 = 2 := by rw [revAt_le (by norm_num)]
    rw [r1, r2, r3]
    simp only [pow_one, pow_zero, mul_one]
    ring
  rw [h]
  simp only [cj, uPoly, Polynomial.map_add, Polynomial.map_mul, map_C, Polynomial.map_pow, map_X,
    add_comp, mul_comp, C_comp, pow_comp, X_comp, map_div₀, map_neg, map_sub, map_add, map_mul,
    Complex.conj_ofReal, Complex.conj_I, map_ofNat]
  have e1 : -((v 0 : ℂ) - -Complex.I * v 1) / 2 = -(((v 0 : ℂ) + Complex.I * v 1) / 2) := by ring
  have e2 : ((v 0 : ℂ) + -Complex.I * v 1) / 2 = -(-((v 0 : ℂ) - Complex.I * v 1) / 2) := by ring
  rw [e1, e2, C_neg, C_neg]
  ring

/-- The reality symmetry. -/
theorem Rsol_neg_m (l : ℕ) (m : ℤ) (v : V3) :
    Rsol l (-m) v = (-1) ^ m * (starRingEnd ℂ) (Rsol l m v) := by
  have h1 : (reflect (2 * l) (uPoly v ^ l)).comp (-X) = (-1) ^ l * cj (uPoly v ^ l) := by
    rw [reflect_pow _ (uPoly_natDegree v), pow_comp, uPoly_conj, cj, neg_pow, cj,
      Polynomial.map_pow]
  have h2 := congrArg (fun p => zc p (l + m)) h1
  rw [zc_comp_neg_X, zc_reflect _ _ (uPoly_pow_natDegree v l),
    show ((-1 : ℂ[X]) ^ l) = C ((-1) ^ l) by simp, zc_C_mul, zc_cj] at h2
  rw [Rsol, Rsol, map_div₀, Complex.conj_natCast,
    show (l : ℤ) + -m = ((2 * l : ℕ) : ℤ) - (l + m) by push_cast; ring]
  have h3 : ((-1 : ℂ)) ^ ((l : ℤ) + m) = (-1) ^ l * (-1) ^ m := by
    rw [zpow_add₀ (by norm_num), zpow_natCast]
  rw [h3, mul_assoc] at h2
  have h4 := mul_left_cancel₀ (pow_ne_zero l (by norm_num : (-1 : ℂ) ≠ 0)) h2
  rw [← h4, mul_div_assoc, ← mul_assoc, ← zpow_add₀ (by norm_num : (-1 : ℂ) ≠ 0)]
  rw [Even.neg_one_zpow ⟨m, rfl⟩, one_mul]

end Newt
