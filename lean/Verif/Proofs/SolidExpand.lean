import Verif.Proofs.Solid
import Verif.Spec.Moments

/-! # Explicit monomial expansion of the regular solid harmonics -/

namespace Newt

open Polynomial Finset

theorem coeff_lin_pow (z c : ℂ) (n s : ℕ) :
    ((C z * X + C c) ^ n).coeff s = if s ≤ n then (n.choose s : ℂ) * z ^ s * c ^ (n - s) else 0 := by
  rw [add_pow, finset_sum_coeff]
  have : ∀ j ∈ range (n + 1), ((C z * X) ^ j * C c ^ (n - j) * ((n.choose j : ℕ) : ℂ[X])).coeff s
      = if j = s then (n.choose s : ℂ) * z ^ s * c ^ (n - s) else 0 := by
    intro j _
    have h : (C z * X) ^ j * C c ^ (n - j) * ((n.choose j : ℕ) : ℂ[X])
        = C (z ^ j * c ^ (n - j) * (n.choose j : ℂ)) * X ^ j := by
      simp only [C_mul, C_pow, mul_pow, map_natCast]; ring
    rw [h, coeff_C_mul_X_pow]
    by_cases hjs : j = s
    · subst hjs; simp; ring
    · rw [if_neg (fun h => hjs h.symm), if_neg hjs]
  rw [sum_congr rfl this, sum_ite_eq']
  simp [Nat.lt_succ_iff]

theorem coeff_quad_pow (a z c : ℂ) (l s : ℕ) :
    ((C a * X ^ 2 + C z * X + C c) ^ l).coeff s
      = ∑ i ∈ range (l + 1), if 2 * i ≤ s ∧ s ≤ l + i then
          (l.choose i : ℂ) * ((l - i).choose (s - 2 * i) : ℂ) * a ^ i * z ^ (s - 2 * i)
            * c ^ (l + i - s) else 0 := by
  rw [add_assoc, add_pow, finset_sum_coeff]
  refine sum_congr rfl fun i hi => ?_
  have hi' : i ≤ l := by simpa [Nat.lt_succ_iff] using hi
  have h : (C a * X ^ 2) ^ i * (C z * X + C c) ^ (l - i) * ((l.choose i : ℕ) : ℂ[X])
      = C (a ^ i * (l.choose i : ℂ)) * ((C z * X + C c) ^ (l - i) * X ^ (2 * i)) := by
    simp only [C_mul, C_pow, mul_pow, map_natCast, ← pow_mul]; ring
  rw [h, coeff_C_mul, coeff_mul_X_pow']
  by_cases h2 : 2 * i ≤ s
  · rw [if_pos h2, coeff_lin_pow]
    by_cases h3 : s ≤ l + i
    · rw [if_pos (by omega), if_pos ⟨h2, h3⟩, show l - i - (s - 2 * i) = l + i - s by omega]; ring
    · rw [if_neg (by omega), if_neg (by omega)]; ring
  · rw [if_neg h2, if_neg (by omega)]; ring

/-- Coefficient of the monomial `(x-iy)^m (x^2+y^2)^k z^(l-m-2k)` in `Rsol l m`. -/
noncomputable def rc (l m k : ℕ) : ℝ :=
  (-1) ^ (m + k) / (2 ^ (m + 2 * k) * k.factorial * (m + k).factorial * (l - m - 2 * k).factorial)

theorem Rsol_expand (l m : ℕ) (hm : m ≤ l) (v : V3) :
    Rsol l m v = ∑ k ∈ range ((l - m) / 2 + 1), (rc l m k : ℂ) *
      (((v 0 : ℂ) - Complex.I * v 1) ^ m * ((v 0 : ℂ) ^ 2 + (v 1 : ℂ) ^ 2) ^ k * (v 2 : ℂ) ^ (l - m - 2 * k)) := by
  rw [Rsol, uPoly, show ((l : ℤ) + (m : ℤ)) = ((l + m : ℕ) : ℤ) by push_cast; rfl, zc_nat,
    coeff_quad_pow]
  rw [sum_div]
  symm
  refine sum_of_injOn (fun k => m + k) ?_ ?_ ?_ ?_
  · intro a _ b _ h; simpa using h
  · intro k hk; simp at hk ⊢; omega
  · intro i hi hni
    simp only [Set.mem_image, coe_range, Set.mem_Iio, not_exists, not_and] at hni
    simp only [mem_range] at hi
    rw [if_neg]; · simp
    rintro ⟨h1, h2⟩
    exact hni (i - m) (by omega) (by omega)
  · intro k hk
    simp only [mem_range] at hk
    rw [if_pos ⟨by omega, by omega⟩]
    rw [show l + m - 2 * (m + k) = l - m - 2 * k by omega, show l + (m + k) - (l + m) = k by omega]
    have hx : (v 0 : ℂ) ^ 2 + (v 1 : ℂ) ^ 2
        = ((v 0 : ℂ) - Complex.I * v 1) * ((v 0 : ℂ) + Complex.I * v 1) := by
      ring_nf; simp
    rw [hx]
    have e1 : (l.choose (m + k) : ℂ) * ((l - (m + k)).choose (l - m - 2 * k) : ℂ) / (l.factorial : ℂ)
        = 1 / ((k.factorial : ℂ) * (m + k).factorial * (l - m - 2 * k).factorial) := by
      rw [Nat.cast_choose ℂ (show m + k ≤ l by omega),
        Nat.cast_choose ℂ (show l - m - 2 * k ≤ l - (m + k) by omega),
        show l - (m + k) - (l - m - 2 * k) = k by omega]
      have := Nat.factorial_ne_zero
      field_simp [this]
    simp only [rc]
    push_cast
    calc _ = ((l.choose (m + k) : ℂ) * ((l - (m + k)).choose (l - m - 2 * k) : ℂ) / (l.factorial : ℂ)) *
          ((-((v 0 : ℂ) - Complex.I * v 1) / 2) ^ (m + k) * (v 2 : ℂ) ^ (l - m - 2 * k) *
          (((v 0 : ℂ) + Complex.I * v 1) / 2) ^ k) := by
            rw [e1]
            generalize ((v 0 : ℂ) - Complex.I * v 1) = A
            generalize ((v 0 : ℂ) + Complex.I * v 1) = B
            rw [div_pow, div_pow, neg_pow A, mul_pow, pow_add _ m k]
            have := Nat.factorial_ne_zero
            field_simp [this]
            ring
      _ = _ := by ring

end Newt
