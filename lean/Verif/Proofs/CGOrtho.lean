import Verif.Props.ClebschGordan
import Mathlib.RingTheory.PowerSeries.WellKnown
import Mathlib.LinearAlgebra.Matrix.NonsingularInverse

/-!
# Ladder relations and orthonormality of Racah's formula
-/

namespace Newt

open Spec

theorem mul_invFct (n : ℤ) : (n : ℝ) * invFct n = invFct (n - 1) := by
  rcases lt_trichotomy n 0 with h | h | h
  · rw [invFct, invFct, if_pos h, if_pos (by omega), mul_zero]
  · subst h; simp [invFct]
  · rw [invFct_eq h.le, invFct_eq (by omega)]
    have := fct_succ (n - 1) (by omega)
    rw [sub_add_cancel] at this
    rw [this]
    have h1 := fct_ne_zero (n - 1)
    have h2 : (n : ℝ) ≠ 0 := by exact_mod_cast h.ne'
    push_cast
    rw [sub_add_cancel]
    field_simp

/-- One term of Racah's sum. -/
noncomputable def rTerm (a b J m n k : ℤ) : ℝ :=
  (-1 : ℝ) ^ k * (invFct k * invFct (a + b - J - k) * invFct (a - m - k) * invFct (b + n - k)
      * invFct (J - b + m + k) * invFct (J - a - n + k))

/-- Racah's sum. -/
noncomputable def rSum (a b J m n : ℤ) : ℝ := ∑ k ∈ Finset.Icc 0 (a + b - J), rTerm a b J m n k

/-- The ladder relation of Racah's sum. -/
theorem rSum_lower (a b J m n : ℤ) (hJ : J ≤ a + b) :
    ((J - m - n : ℤ) : ℝ) * rSum a b J m n =
      ((a + m + 1 : ℤ) : ℝ) * rSum a b J (m + 1) n + ((b + n + 1 : ℤ) : ℝ) * rSum a b J m (n + 1) := by
  set g : ℤ → ℝ := fun k => (-1 : ℝ) ^ k * (invFct (k - 1) * invFct (a + b - J - k) * invFct (a - m - k) * invFct (b + n + 1 - k)
      * invFct (J - b + m + k) * invFct (J - a - n - 1 + k)) with hg
  have key : ∀ k, ((J - m - n : ℤ) : ℝ) * rTerm a b J m n k - ((a + m + 1 : ℤ) : ℝ) * rTerm a b J (m + 1) n k -
      ((b + n + 1 : ℤ) : ℝ) * rTerm a b J m (n + 1) k = g (k + 1) - g k := by
    intro k
    have e1 := mul_invFct (a - m - k)
    have e2 := mul_invFct (J - a - n + k)
    have e3 := mul_invFct (a + b - J - k)
    have e4 := mul_invFct (J - b + m + 1 + k)
    have e5 := mul_invFct k
    have e6 := mul_invFct (b + n + 1 - k)
    have hs : (-1 : ℝ) ^ (k + 1) = -(-1) ^ k := by rw [zpow_add_one₀ (by norm_num)]; ring
    simp only [rTerm, hg, hs]
    rw [show a - (m + 1) - k = a - m - k - 1 by ring, show J - b + (m + 1) + k = J - b + m + 1 + k by ring,
      show b + (n + 1) - k = b + n + 1 - k by ring, show J - a - (n + 1) + k = J - a - n + k - 1 by ring,
      show k + 1 - 1 = k by ring, show a + b - J - (k + 1) = a + b - J - k - 1 by ring, show a - m - (k + 1) = a - m - k - 1 by ring,
      show b + n + 1 - (k + 1) = b + n - k by ring, show J - b + m + (k + 1) = J - b + m + 1 + k by ring,
      show J - a - n - 1 + (k + 1) = J - a - n + k by ring, show J - a - n - 1 + k = J - a - n + k - 1 by ring]
    rw [show J - b + m + 1 + k - 1 = J - b + m + k by ring] at e4
    rw [show b + n + 1 - k - 1 = b + n - k by ring] at e6
    rw [← e1, ← e2, ← e3, ← e5, ← e6, ← e4]
    push_cast
    ring
  have htel : ∑ k ∈ Finset.Icc 0 (a + b - J), (g (k + 1) - g k) = g (a + b - J + 1) - g 0 := by
    obtain ⟨N, hN⟩ : ∃ N : ℕ, a + b - J = N := ⟨(a + b - J).toNat, by omega⟩
    rw [hN]
    clear_value g
    clear hN key hg
    induction N with
    | zero => simp
    | succ N ih =>
      have : Finset.Icc (0 : ℤ) ((N + 1 : ℕ) : ℤ) = insert ((N + 1 : ℕ) : ℤ) (Finset.Icc 0 (N : ℤ)) := by
        ext x; simp only [Finset.mem_Icc, Finset.mem_insert]; push_cast; omega
      rw [this, Finset.sum_insert (by simp), ih]
      push_cast
      ring
  have h0 : g 0 = 0 := by simp [hg, invFct]
  have h1 : g (a + b - J + 1) = 0 := by
    simp only [hg]
    rw [show a + b - J - (a + b - J + 1) = -1 by ring, show invFct (-1) = 0 by simp [invFct]]
    ring
  have := Finset.sum_congr (s₁ := Finset.Icc 0 (a + b - J)) rfl fun k _ => key k
  rw [htel, h0, h1, Finset.sum_sub_distrib, Finset.sum_sub_distrib, ← Finset.mul_sum, ← Finset.mul_sum, ← Finset.mul_sum] at this
  simp only [rSum]
  linarith

theorem rSum_zero (a b J m n : ℤ) (h : a - m < 0 ∨ a + m < 0 ∨ b - n < 0 ∨ b + n < 0 ∨ J - m - n < 0 ∨ J + m + n < 0) :
    rSum a b J m n = 0 := by
  refine Finset.sum_eq_zero fun k hk => ?_
  rw [Finset.mem_Icc] at hk
  have hz : ∀ x : ℤ, x < 0 → invFct x = 0 := fun x hx => by rw [invFct, if_pos hx]
  have hneg : a - m - k < 0 ∨ a + b - J - k < 0 ∨ J - b + m + k < 0 ∨ J - a - n + k < 0 ∨ b + n - k < 0 := by omega
  rw [rTerm]
  rcases hneg with h | h | h | h | h <;> rw [hz _ h] <;> ring

/-- The weight of one angular momentum. -/
noncomputable def cgW (j m : ℤ) : ℝ := if |m| ≤ j then Real.sqrt (fct (j + m) * fct (j - m)) else 0

theorem cgW_neg (j m : ℤ) (h : ¬ |m| ≤ j) : cgW j m = 0 := by rw [cgW, if_neg h]

/-- The prefactor of Racah's formula. -/
noncomputable def cgN (a b J : ℤ) : ℝ :=
  Real.sqrt ((2 * J + 1) * (fct (J + a - b) * fct (J - a + b) * fct (a + b - J)) / fct (a + b + J + 1))

theorem cgCoeff_rSum (a b m n J : ℤ) (h1 : |a - b| ≤ J) (h2 : J ≤ a + b) :
    cgCoeff a b m n J (m + n) = cgN a b J * (cgW J (m + n) * cgW a m * cgW b n * rSum a b J m n) := by
  by_cases ha : |m| ≤ a
  swap
  · rw [cgCoeff_invalid (fun h => ha h.1), cgW_neg _ _ ha]; ring
  by_cases hb : |n| ≤ b
  swap
  · rw [cgCoeff_invalid (fun h => hb h.2.1), cgW_neg _ _ hb]; ring
  by_cases hM : |m + n| ≤ J
  swap
  · rw [cgCoeff_invalid (fun h => hM h.2.2.1), cgW_neg _ _ hM]; ring
  rw [C24_racah a b m n J (m + n) ⟨ha, hb, hM, h1, h2, rfl⟩, racah, cgW, cgW, cgW, if_pos ha, if_pos hb, if_pos hM, cgN, rSum]
  have e : Real.sqrt (fct (J + (m + n)) * fct (J - (m + n)) * (fct (a - m) * fct (a + m)) * (fct (b - n) * fct (b + n))) =
      Real.sqrt (fct (J + (m + n)) * fct (J - (m + n))) * Real.sqrt (fct (a + m) * fct (a - m)) * Real.sqrt (fct (b + n) * fct (b - n)) := by
    have hp := fct_pos
    rw [← Real.sqrt_mul (mul_nonneg (hp _).le (hp _).le), ← Real.sqrt_mul (mul_nonneg (mul_nonneg (hp _).le (hp _).le)
      (mul_nonneg (hp _).le (hp _).le))]
    congr 1; ring
  rw [e]
  simp only [rTerm]
  ring

/-- Raising the weight by one step. -/
theorem cgW_step (j m : ℤ) (h1 : -j ≤ m) (h2 : m + 1 ≤ j) :
    Real.sqrt (((j - m : ℤ) : ℝ) * ((j + m + 1 : ℤ) : ℝ)) * cgW j (m + 1) = ((j + m + 1 : ℤ) : ℝ) * cgW j m := by
  have hp := fct_pos
  have c1 : (0 : ℝ) ≤ ((j - m : ℤ) : ℝ) := by exact_mod_cast (by omega : (0 : ℤ) ≤ j - m)
  have c2 : (0 : ℝ) ≤ ((j + m + 1 : ℤ) : ℝ) := by exact_mod_cast (by omega : (0 : ℤ) ≤ j + m + 1)
  rw [cgW, cgW, if_pos (abs_le.2 ⟨by omega, by omega⟩), if_pos (abs_le.2 ⟨by omega, by omega⟩), ← Real.sqrt_mul (mul_nonneg c1 c2)]
  have e1 := fct_succ (j + m) (by omega)
  have e2 := fct_succ (j - m - 1) (by omega)
  rw [sub_add_cancel] at e2
  rw [show j + (m + 1) = j + m + 1 by ring, show j - (m + 1) = j - m - 1 by ring, e1, e2]
  have : ((j - m : ℤ) : ℝ) * ((j + m + 1 : ℤ) : ℝ) * ((((j + m : ℤ) : ℝ) + 1) * fct (j + m) * fct (j - m - 1)) =
      ((j + m + 1 : ℤ) : ℝ) ^ 2 * (fct (j + m) * ((((j - m - 1 : ℤ) : ℝ) + 1) * fct (j - m - 1))) := by
    push_cast; ring
  rw [this, Real.sqrt_mul (sq_nonneg _), Real.sqrt_sq c2]

theorem sqrt_ladder_zero (j m : ℤ) (h : m ≤ -j - 1 ∨ j ≤ m) (hj : 0 ≤ j) :
    Real.sqrt (((j - m : ℤ) : ℝ) * ((j + m + 1 : ℤ) : ℝ)) = 0 := by
  apply Real.sqrt_eq_zero_of_nonpos
  have : (j - m) * (j + m + 1) ≤ 0 := by
    rcases h with h | h
    · exact mul_nonpos_of_nonneg_of_nonpos (by omega) (by omega)
    · exact mul_nonpos_of_nonpos_of_nonneg (by omega) (by omega)
  exact_mod_cast this

/-- Lowering, for all integers. -/
theorem cg_lower (a b m n J M : ℤ) :
    Real.sqrt (((J + M : ℤ) : ℝ) * ((J - M + 1 : ℤ) : ℝ)) * cgCoeff a b m n J (M - 1) =
      Real.sqrt (((a - m : ℤ) : ℝ) * ((a + m + 1 : ℤ) : ℝ)) * cgCoeff a b (m + 1) n J M +
      Real.sqrt (((b - n : ℤ) : ℝ) * ((b + n + 1 : ℤ) : ℝ)) * cgCoeff a b m (n + 1) J M := by
  by_cases hM : M = m + n + 1
  swap
  · rw [cgCoeff_invalid (fun h => hM (by have := h.2.2.2.2.2; omega)), cgCoeff_invalid (fun h => hM (by have := h.2.2.2.2.2; omega)),
      cgCoeff_invalid (fun h => hM (by have := h.2.2.2.2.2; omega))]; ring
  subst hM
  by_cases hv : |a - b| ≤ J ∧ J ≤ a + b
  swap
  · rw [cgCoeff_invalid (fun h => hv ⟨h.2.2.2.1, h.2.2.2.2.1⟩), cgCoeff_invalid (fun h => hv ⟨h.2.2.2.1, h.2.2.2.2.1⟩),
      cgCoeff_invalid (fun h => hv ⟨h.2.2.2.1, h.2.2.2.2.1⟩)]; ring
  obtain ⟨h1, h2⟩ := hv
  have habs := abs_le.1 h1
  have ha : 0 ≤ a := by omega
  have hb : 0 ≤ b := by omega
  have hJ : 0 ≤ J := by omega
  rw [show m + n + 1 - 1 = m + n by ring, cgCoeff_rSum a b m n J h1 h2, show m + n + 1 = m + 1 + n by ring,
    cgCoeff_rSum a b (m + 1) n J h1 h2, show m + 1 + n = m + (n + 1) by ring, cgCoeff_rSum a b m (n + 1) J h1 h2]
  by_cases hm : |m| ≤ a
  swap
  · have : m ≤ -a - 1 ∨ a ≤ m := by
      by_contra hc; push Not at hc; exact hm (abs_le.2 ⟨by omega, by omega⟩)
    rw [cgW_neg _ _ hm, sqrt_ladder_zero a m this ha]; ring
  by_cases hn : |n| ≤ b
  swap
  · have : n ≤ -b - 1 ∨ b ≤ n := by
      by_contra hc; push Not at hc; exact hn (abs_le.2 ⟨by omega, by omega⟩)
    rw [cgW_neg _ _ hn, sqrt_ladder_zero b n this hb]; ring
  have hm' := abs_le.1 hm
  have hn' := abs_le.1 hn
  have t1 : Real.sqrt (((a - m : ℤ) : ℝ) * ((a + m + 1 : ℤ) : ℝ)) * cgW a (m + 1) * rSum a b J (m + 1) n =
      ((a + m + 1 : ℤ) : ℝ) * cgW a m * rSum a b J (m + 1) n := by
    rcases lt_or_ge m a with h | h
    · rw [cgW_step a m hm'.1 (by omega)]
    · rw [rSum_zero a b J (m + 1) n (by omega)]; ring
  have t2 : Real.sqrt (((b - n : ℤ) : ℝ) * ((b + n + 1 : ℤ) : ℝ)) * cgW b (n + 1) * rSum a b J m (n + 1) =
      ((b + n + 1 : ℤ) : ℝ) * cgW b n * rSum a b J m (n + 1) := by
    rcases lt_or_ge n b with h | h
    · rw [cgW_step b n hn'.1 (by omega)]
    · rw [rSum_zero a b J m (n + 1) (by omega)]; ring
  have t0 : Real.sqrt (((J + (m + (n + 1)) : ℤ) : ℝ) * ((J - (m + (n + 1)) + 1 : ℤ) : ℝ)) * cgW J (m + n) * rSum a b J m n =
      ((J - m - n : ℤ) : ℝ) * cgW J (m + (n + 1)) * rSum a b J m n := by
    rcases lt_or_ge (J + m + n) 0 with h | h
    · rw [rSum_zero a b J m n (by omega)]; ring
    rcases lt_or_ge J (m + n + 1) with h' | h'
    · rw [cgW_neg J (m + (n + 1)) (fun h => by have := abs_le.1 h; omega)]
      rcases eq_or_lt_of_le (by omega : J ≤ m + n) with h'' | h''
      · rw [show ((J - (m + (n + 1)) + 1 : ℤ) : ℝ) = 0 by rw [show J - (m + (n + 1)) + 1 = 0 by omega]; simp]; simp
      · rw [rSum_zero a b J m n (by omega)]; ring
    · have e1 := cgW_step J (m + n) (by omega) (by omega)
      have e2 : Real.sqrt (((J + (m + (n + 1)) : ℤ) : ℝ) * ((J - (m + (n + 1)) + 1 : ℤ) : ℝ)) ^ 2 =
          ((J + m + n + 1 : ℤ) : ℝ) * ((J - m - n : ℤ) : ℝ) := by
        rw [Real.sq_sqrt]
        · push_cast; ring
        · exact_mod_cast mul_nonneg (by omega : (0 : ℤ) ≤ J + (m + (n + 1))) (by omega : (0 : ℤ) ≤ J - (m + (n + 1)) + 1)
      have e3 : Real.sqrt (((J - (m + n) : ℤ) : ℝ) * ((J + (m + n) + 1 : ℤ) : ℝ)) =
          Real.sqrt (((J + (m + (n + 1)) : ℤ) : ℝ) * ((J - (m + (n + 1)) + 1 : ℤ) : ℝ)) := by
        congr 1; push_cast; ring
      rw [e3] at e1
      set q := Real.sqrt (((J + (m + (n + 1)) : ℤ) : ℝ) * ((J - (m + (n + 1)) + 1 : ℤ) : ℝ))
      have hpos : (0 : ℝ) < ((J + m + n + 1 : ℤ) : ℝ) := by exact_mod_cast (by omega : (0 : ℤ) < J + m + n + 1)
      congr 1
      apply mul_left_cancel₀ hpos.ne'
      have e4 : ((J + (m + n) + 1 : ℤ) : ℝ) = ((J + m + n + 1 : ℤ) : ℝ) := by push_cast; ring
      rw [e4] at e1
      calc _ = q * (((J + m + n + 1 : ℤ) : ℝ) * cgW J (m + n)) := by ring
        _ = q ^ 2 * cgW J (m + n + 1) := by rw [← e1]; ring
        _ = _ := by rw [e2, show m + (n + 1) = m + n + 1 by ring]; ring
  have hl := rSum_lower a b J m n h2
  linear_combination (cgN a b J * cgW a m * cgW b n) * t0 - (cgN a b J * cgW J (m + (n + 1)) * cgW b n) * t1 -
    (cgN a b J * cgW J (m + (n + 1)) * cgW a m) * t2 + (cgN a b J * cgW J (m + (n + 1)) * cgW a m * cgW b n) * hl

/-- Raising, for all integers. -/
theorem cg_raise (a b m n J M : ℤ) :
    Real.sqrt (((J - M : ℤ) : ℝ) * ((J + M + 1 : ℤ) : ℝ)) * cgCoeff a b m n J (M + 1) =
      Real.sqrt (((a + m : ℤ) : ℝ) * ((a - m + 1 : ℤ) : ℝ)) * cgCoeff a b (m - 1) n J M +
      Real.sqrt (((b + n : ℤ) : ℝ) * ((b - n + 1 : ℤ) : ℝ)) * cgCoeff a b m (n - 1) J M := by
  have h := cg_lower a b (-m) (-n) J (-M)
  rw [show -M - 1 = -(M + 1) by ring, show -m + 1 = -(m - 1) by ring, show -n + 1 = -(n - 1) by ring,
    C24_reflection, C24_reflection, C24_reflection] at h
  have hs : (-1 : ℝ) ^ (J - a - b) ≠ 0 := zpow_ne_zero _ (by norm_num)
  apply mul_left_cancel₀ hs
  rw [show J + -M = J - M by ring, show J - -M + 1 = J + M + 1 by ring, show a - -m = a + m by ring, show a + -m + 1 = a - m + 1 by ring,
    show b - -n = b + n by ring, show b + -n + 1 = b - n + 1 by ring] at h
  linear_combination h

/-- The scalar product of two columns. -/
noncomputable def cgIp (a b J J' M : ℤ) : ℝ :=
  ∑ m ∈ Finset.Icc (-a) a, cgCoeff a b m (M - m) J M * cgCoeff a b m (M - m) J' M

theorem cgIp_comm (a b J J' M : ℤ) : cgIp a b J J' M = cgIp a b J' J M :=
  Finset.sum_congr rfl fun _ _ => mul_comm _ _

theorem cg_sum_shift (a : ℤ) (f : ℤ → ℝ) (h1 : f (a + 1) = 0) (h2 : f (-a) = 0) :
    ∑ m ∈ Finset.Icc (-a) a, f (m + 1) = ∑ m ∈ Finset.Icc (-a) a, f m := by
  have e1 : ∑ m ∈ Finset.Icc (-a) a, f m = ∑ m ∈ Finset.Icc (-a + 1) (a + 1), f m := by
    rcases lt_or_ge a 0 with ha | ha
    · rw [Finset.Icc_eq_empty (by omega), Finset.Icc_eq_empty (by omega)]
    have l : ∑ m ∈ Finset.Icc (-a) (a + 1), f m = ∑ m ∈ Finset.Icc (-a) a, f m := by
      symm
      apply Finset.sum_subset (Finset.Icc_subset_Icc_right (by omega))
      intro x hx hx'
      rw [Finset.mem_Icc] at hx hx'
      rw [show x = a + 1 by omega, h1]
    have r : ∑ m ∈ Finset.Icc (-a) (a + 1), f m = ∑ m ∈ Finset.Icc (-a + 1) (a + 1), f m := by
      symm
      apply Finset.sum_subset (Finset.Icc_subset_Icc_left (by omega))
      intro x hx hx'
      rw [Finset.mem_Icc] at hx hx'
      rw [show x = -a by omega, h2]
    rw [← l, r]
  rw [e1]
  refine Finset.sum_bij (fun m _ => m + 1) (fun m hm => ?_) (fun x _ y _ h => by omega) (fun y hy => ⟨y - 1, ?_, by omega⟩) fun _ _ => rfl
  · rw [Finset.mem_Icc] at hm ⊢; omega
  · rw [Finset.mem_Icc] at hy ⊢; omega

/-- The lowering operator is the adjoint of the raising operator. -/
theorem cgIp_step (a b J J' M : ℤ) :
    Real.sqrt (((J + M : ℤ) : ℝ) * ((J - M + 1 : ℤ) : ℝ)) * cgIp a b J J' (M - 1) =
      Real.sqrt (((J' + M : ℤ) : ℝ) * ((J' - M + 1 : ℤ) : ℝ)) * cgIp a b J J' M := by
  set f : ℤ → ℝ := fun m => Real.sqrt (((a + m : ℤ) : ℝ) * ((a - m + 1 : ℤ) : ℝ)) * cgCoeff a b m (M - m) J M *
    cgCoeff a b (m - 1) (M - m) J' (M - 1) with hf
  set g : ℤ → ℝ := fun m => Real.sqrt (((b + (M - m) : ℤ) : ℝ) * ((b - (M - m) + 1 : ℤ) : ℝ)) * cgCoeff a b m (M - m) J M *
    cgCoeff a b m (M - 1 - m) J' (M - 1) with hg
  have hl : Real.sqrt (((J + M : ℤ) : ℝ) * ((J - M + 1 : ℤ) : ℝ)) * cgIp a b J J' (M - 1) =
      ∑ m ∈ Finset.Icc (-a) a, f (m + 1) + ∑ m ∈ Finset.Icc (-a) a, g m := by
    rw [cgIp, Finset.mul_sum, ← Finset.sum_add_distrib]
    refine Finset.sum_congr rfl fun m _ => ?_
    rw [← mul_assoc, cg_lower, add_mul]
    simp only [hf, hg]
    rw [show a + (m + 1) = a + m + 1 by ring, show a - (m + 1) + 1 = a - m by ring, show M - (m + 1) = M - 1 - m by ring,
      show m + 1 - 1 = m by ring, show M - 1 - m + 1 = M - m by ring, show b - (M - 1 - m) = b - (M - m) + 1 by ring,
      show b + (M - 1 - m) + 1 = b + (M - m) by ring, mul_comm ((a - m : ℤ) : ℝ), mul_comm ((b - (M - m) + 1 : ℤ) : ℝ)]
  have hr : Real.sqrt (((J' + M : ℤ) : ℝ) * ((J' - M + 1 : ℤ) : ℝ)) * cgIp a b J J' M =
      ∑ m ∈ Finset.Icc (-a) a, f m + ∑ m ∈ Finset.Icc (-a) a, g m := by
    rw [cgIp, Finset.mul_sum, ← Finset.sum_add_distrib]
    refine Finset.sum_congr rfl fun m _ => ?_
    have h := cg_raise a b m (M - m) J' (M - 1)
    rw [sub_add_cancel, show J' - (M - 1) = J' - M + 1 by ring, show J' + (M - 1) + 1 = J' + M by ring,
      mul_comm ((J' - M + 1 : ℤ) : ℝ), show M - m - 1 = M - 1 - m by ring] at h
    simp only [hf, hg]
    linear_combination (cgCoeff a b m (M - m) J M) * h
  rw [hl, hr, cg_sum_shift a f]
  · simp only [hf]; rw [show a - (a + 1) + 1 = 0 by ring]; simp
  · simp only [hf]; rw [show a + -a = 0 by ring]; simp

theorem sqrt_pos_ladder (J M : ℤ) (h1 : -J < M) (h2 : M ≤ J) : 0 < Real.sqrt (((J + M : ℤ) : ℝ) * ((J - M + 1 : ℤ) : ℝ)) := by
  apply Real.sqrt_pos.2
  have : 0 < (J + M) * (J - M + 1) := mul_pos (by omega) (by omega)
  exact_mod_cast this

theorem cgIp_ne_lt (a b J J' M : ℤ) (h : J < J') : cgIp a b J J' M = 0 := by
  by_cases hM : |M| ≤ J
  swap
  · refine Finset.sum_eq_zero fun m _ => ?_
    rw [cgCoeff_invalid (fun h => hM h.2.2.1), zero_mul]
  have hM' := abs_le.1 hM
  obtain ⟨k, hk⟩ : ∃ k : ℕ, M = J - k := ⟨(J - M).toNat, by omega⟩
  clear hM
  induction k generalizing M with
  | zero =>
    have hJ : M = J := by omega
    subst hJ
    have := cgIp_step a b M J' (M + 1)
    rw [add_sub_cancel_right, show M - (M + 1) + 1 = 0 by ring] at this
    have h0 : cgIp a b M J' (M + 1) = 0 := by
      refine Finset.sum_eq_zero fun m _ => ?_
      rw [cgCoeff_invalid (fun h => by have := abs_le.1 h.2.2.1; omega), zero_mul]
    have h3 := cgIp_step a b J' M (M + 1)
    rw [add_sub_cancel_right, cgIp_comm a b J' M (M + 1), h0, mul_zero] at h3
    rw [cgIp_comm]
    exact (mul_eq_zero.1 h3).resolve_left (sqrt_pos_ladder J' (M + 1) (by omega) (by omega)).ne'
  | succ k ih =>
    have h0 := ih (M + 1) ⟨by omega, by omega⟩ (by push_cast at hk; omega)
    have h3 := cgIp_step a b J' J (M + 1)
    rw [add_sub_cancel_right, cgIp_comm a b J' J (M + 1), h0, mul_zero] at h3
    rw [cgIp_comm]
    exact (mul_eq_zero.1 h3).resolve_left (sqrt_pos_ladder J' (M + 1) (by omega) (by omega)).ne'

theorem cgIp_ne (a b J J' M : ℤ) (h : J ≠ J') : cgIp a b J J' M = 0 := by
  rcases lt_or_gt_of_ne h with h | h
  · exact cgIp_ne_lt a b J J' M h
  · rw [cgIp_comm]; exact cgIp_ne_lt a b J' J M h

theorem cgIp_top (a b J M : ℤ) (h : |M| ≤ J) : cgIp a b J J M = cgIp a b J J J := by
  have hM' := abs_le.1 h
  obtain ⟨k, hk⟩ : ∃ k : ℕ, M = J - k := ⟨(J - M).toNat, by omega⟩
  clear h
  induction k generalizing M with
  | zero => rw [show M = J by omega]
  | succ k ih =>
    rw [← ih (M + 1) ⟨by omega, by omega⟩ (by push_cast at hk; omega)]
    have h3 := cgIp_step a b J J (M + 1)
    rw [add_sub_cancel_right] at h3
    exact mul_left_cancel₀ (sqrt_pos_ladder J (M + 1) (by omega) (by omega)).ne' h3

/-- Chu-Vandermonde in the negative binomial form. -/
theorem choose_conv (c d n : ℕ) :
    ∑ i ∈ Finset.range (n + 1), (Nat.choose (c + (n - i)) c : ℝ) * Nat.choose (d + i) d = Nat.choose (c + d + 1 + n) (c + d + 1) := by
  have h : (PowerSeries.invOneSubPow ℝ (c + 1)).val * (PowerSeries.invOneSubPow ℝ (d + 1)).val =
      (PowerSeries.invOneSubPow ℝ (c + d + 1 + 1)).val := by
    rw [← Units.val_mul, ← PowerSeries.invOneSubPow_add]
    congr 2; ring
  rw [PowerSeries.invOneSubPow_val_succ_eq_mk_add_choose, PowerSeries.invOneSubPow_val_succ_eq_mk_add_choose,
    PowerSeries.invOneSubPow_val_succ_eq_mk_add_choose] at h
  have := congrArg (PowerSeries.coeff n) h
  rw [PowerSeries.coeff_mul, PowerSeries.coeff_mk, Finset.Nat.sum_antidiagonal_eq_sum_range_succ_mk] at this
  simp only [PowerSeries.coeff_mk] at this
  rw [← this, ← Finset.sum_range_reflect]
  refine Finset.sum_congr rfl fun i hi => ?_
  rw [Finset.mem_range] at hi
  rw [show n + 1 - 1 - i = n - i by omega, show n - (n - i) = i by omega]

theorem fct_nat (k : ℕ) : fct (k : ℤ) = k.factorial := by simp [fct]

theorem cgW_sq (j m : ℤ) (h : |m| ≤ j) : cgW j m ^ 2 = fct (j + m) * fct (j - m) := by
  rw [cgW, if_pos h, Real.sq_sqrt (mul_nonneg (fct_pos _).le (fct_pos _).le)]

theorem cgIp_norm_top (a b J : ℤ) (h1 : |a - b| ≤ J) (h2 : J ≤ a + b) : cgIp a b J J J = 1 := by
  have h1' := abs_le.1 h1
  obtain ⟨c, hc⟩ : ∃ c : ℕ, J + a - b = c := ⟨(J + a - b).toNat, by omega⟩
  obtain ⟨d, hd⟩ : ∃ d : ℕ, J - a + b = d := ⟨(J - a + b).toNat, by omega⟩
  obtain ⟨n, hn⟩ : ∃ n : ℕ, a + b - J = n := ⟨(a + b - J).toNat, by omega⟩
  have hN : cgN a b J ^ 2 = ((c + d + 1 : ℕ) : ℝ) * (c.factorial * d.factorial * n.factorial) / (c + d + 1 + n).factorial := by
    rw [cgN, hc, hd, hn, show a + b + J + 1 = ((c + d + 1 + n : ℕ) : ℤ) by push_cast; omega, fct_nat, fct_nat, fct_nat, fct_nat,
      Real.sq_sqrt]
    · congr 2
      have : (2 * J + 1 : ℤ) = ((c + d + 1 : ℕ) : ℤ) := by push_cast; omega
      exact_mod_cast this
    · have : (0 : ℝ) ≤ 2 * J + 1 := by exact_mod_cast (by omega : (0 : ℤ) ≤ 2 * J + 1)
      positivity
  have hterm : ∀ i ∈ Finset.range (n + 1), cgCoeff a b (a - i) (J - (a - i)) J J ^ 2 =
      cgN a b J ^ 2 * ((c + d).factorial / (c.factorial * d.factorial)) *
        ((Nat.choose (c + (n - i)) c : ℝ) * Nat.choose (d + i) d) := by
    intro i hi
    rw [Finset.mem_range] at hi
    have hC := cgCoeff_rSum a b (a - i) (J - (a - i)) J h1 h2
    rw [show a - (i : ℤ) + (J - (a - i)) = J by ring] at hC
    have hS : rSum a b J (a - i) (J - (a - i)) ^ 2 =
        (1 / (i.factorial * (n - i).factorial * d.factorial * c.factorial : ℝ)) ^ 2 := by
      rw [rSum, Finset.sum_eq_single (i : ℤ)]
      · rw [rTerm, mul_pow, ← zpow_natCast, ← zpow_mul, mul_comm (i : ℤ), zpow_mul]
        norm_num
        rw [show a + b - J - (i : ℤ) = ((n - i : ℕ) : ℤ) by omega, show b + (J - (a - i)) - i = (d : ℤ) by omega,
          show J - b + (a - (i : ℤ)) + i = (c : ℤ) by omega,
          show (0 : ℤ) = ((0 : ℕ) : ℤ) from rfl]
        rw [invFct_eq (by omega), invFct_eq (by omega), invFct_eq (by omega), invFct_eq (by omega), invFct_eq (by omega)]
        simp only [fct_nat]
        field_simp
        simp
      · intro k _ hk
        have hz : ∀ x : ℤ, x < 0 → invFct x = 0 := fun x hx => by rw [invFct, if_pos hx]
        rw [rTerm]
        rcases lt_or_gt_of_ne hk with h | h
        · rw [hz (J - a - (J - (a - i)) + k) (by omega)]; ring
        · rw [hz (a - (a - i) - k) (by omega)]; ring
      · intro h
        exact absurd (Finset.mem_Icc.2 ⟨by omega, by omega⟩) h
    rw [hC]
    have hi' : i ≤ n := by omega
    have w1 := cgW_sq J J (by rw [abs_of_nonneg (by omega)])
    have w2 := cgW_sq a (a - i) (abs_le.2 ⟨by omega, by omega⟩)
    have w3 := cgW_sq b (J - (a - i)) (abs_le.2 ⟨by omega, by omega⟩)
    rw [show J + J = ((c + d : ℕ) : ℤ) by push_cast; omega, show J - J = ((0 : ℕ) : ℤ) by simp, fct_nat, fct_nat] at w1
    rw [show a + (a - (i : ℤ)) = ((c + (n - i) : ℕ) : ℤ) by omega, show a - (a - (i : ℤ)) = (i : ℤ) by ring, fct_nat, fct_nat] at w2
    rw [show b + (J - (a - (i : ℤ))) = ((d + i : ℕ) : ℤ) by omega, show b - (J - (a - (i : ℤ))) = ((n - i : ℕ) : ℤ) by omega,
      fct_nat, fct_nat] at w3
    rw [mul_pow, mul_pow, mul_pow, mul_pow, w1, w2, w3, hS, Nat.cast_add_choose, Nat.cast_add_choose]
    have p1 : ((c.factorial : ℕ) : ℝ) ≠ 0 := by positivity
    have p2 : ((d.factorial : ℕ) : ℝ) ≠ 0 := by positivity
    have p3 : ((i.factorial : ℕ) : ℝ) ≠ 0 := by positivity
    have p4 : (((n - i).factorial : ℕ) : ℝ) ≠ 0 := by positivity
    field_simp
    simp
  have hsum : cgIp a b J J J = ∑ i ∈ Finset.range (n + 1), cgCoeff a b (a - i) (J - (a - i)) J J ^ 2 := by
    have hsub : ∑ m ∈ (Finset.range (n + 1)).image (fun i : ℕ => a - (i : ℤ)), cgCoeff a b m (J - m) J J * cgCoeff a b m (J - m) J J =
        cgIp a b J J J := by
      rw [cgIp]
      apply Finset.sum_subset
      · intro x hx
        obtain ⟨i, hi, rfl⟩ := Finset.mem_image.1 hx
        rw [Finset.mem_range] at hi
        rw [Finset.mem_Icc]
        omega
      · intro x hx hx'
        rw [Finset.mem_Icc] at hx
        rw [cgCoeff_invalid, zero_mul]
        intro hv
        have := abs_le.1 hv.2.1
        exact hx' (Finset.mem_image.2 ⟨(a - x).toNat, Finset.mem_range.2 (by omega), by omega⟩)
    rw [← hsub, Finset.sum_image]
    · exact Finset.sum_congr rfl fun i _ => (sq _).symm
    · intro x _ y _ h
      simp only [sub_right_inj] at h
      exact_mod_cast h
  rw [hsum, Finset.sum_congr rfl hterm, ← Finset.mul_sum, choose_conv, hN, Nat.cast_add_choose, Nat.factorial_succ]
  have p0 : (((c + d).factorial : ℕ) : ℝ) ≠ 0 := by positivity
  have p1 : ((c.factorial : ℕ) : ℝ) ≠ 0 := by positivity
  have p2 : ((d.factorial : ℕ) : ℝ) ≠ 0 := by positivity
  have p3 : ((n.factorial : ℕ) : ℝ) ≠ 0 := by positivity
  have p4 : (((c + d + 1 + n).factorial : ℕ) : ℝ) ≠ 0 := by positivity
  have p5 : ((c + d + 1 : ℕ) : ℝ) ≠ 0 := by positivity
  push_cast at p5 ⊢
  field_simp

end Newt
