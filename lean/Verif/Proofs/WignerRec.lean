import Verif.Proofs.WignerD
import Verif.Proofs.SphHarm

/-! # The recursion of Gumerov and Duraiswami computes Wigner's small d matrix -/

namespace Newt

open Polynomial Spec

theorem epsm_sq (m : ℤ) : epsm m * epsm m = 1 := by
  rw [epsm]; split_ifs
  · exact negone_sq_int m
  · norm_num

theorem epsm_succ (a : ℤ) : epsm (a + 1) = -rsign a * epsm a := by
  rw [epsm, epsm, rsign]
  by_cases h : a < 0
  · by_cases h1 : a = -1
    · subst h1; norm_num
    · rw [if_neg (by omega), if_pos h, if_neg (by omega)]; norm_num
  · rw [if_pos (by omega), if_neg h, if_pos (by omega), zpow_add₀ (by norm_num)]; norm_num

theorem epsm_neg_succ (m : ℤ) : epsm (-(m + 1)) = rsign m * epsm (-m) := by
  rw [epsm, epsm, rsign]
  by_cases h : m < 0
  · rw [if_pos (by omega), if_pos h, if_pos (by omega), show -(m + 1) = -m + -1 by ring,
      zpow_add₀ (by norm_num)]; norm_num
  · by_cases h1 : m = 0
    · subst h1; norm_num
    · rw [if_neg (by omega), if_neg h, if_neg (by omega)]; norm_num

theorem rsign_sq (m : ℤ) : rsign m * rsign m = 1 := by
  rw [rsign]; split_ifs <;> norm_num

theorem dnm_lad (n : ℕ) (m : ℤ) : dnm n m = rsign m * lad n m / 2 := by
  rw [dnm, lad]; push_cast; rfl

/-- The matrix the recursion should produce. -/
noncomputable def Ht (n : ℕ) (c s : ℝ) (a b : ℤ) : ℝ := epsm a * epsm (-b) * dcs c s n a b

variable {c s : ℝ}

theorem Ht_ladder (hcs : c ^ 2 + s ^ 2 = 1) (n : ℕ) (a b : ℤ) (ha : a.natAbs ≤ n)
    (hb : b.natAbs ≤ n) :
    dnm n (a - 1) * Ht n c s (a - 1) b - dnm n a * Ht n c s (a + 1) b =
      dnm n (b - 1) * Ht n c s a (b - 1) - dnm n b * Ht n c s a (b + 1) := by
  have h := dcs_ladder c s hcs n a b ha hb
  have e1 := epsm_succ a
  have e2 := epsm_succ (a - 1)
  have e3 := epsm_neg_succ b
  have e4 := epsm_neg_succ (b - 1)
  rw [show a - 1 + 1 = a by ring] at e2
  rw [show b - 1 + 1 = b by ring] at e4
  have q1 := rsign_sq a
  have q2 := rsign_sq (a - 1)
  have q3 := rsign_sq b
  have q4 := rsign_sq (b - 1)
  have e2' : epsm (a - 1) = - rsign (a - 1) * epsm a := by rw [e2]; linear_combination -epsm (a - 1) * q2
  have e4' : epsm (-(b - 1)) = rsign (b - 1) * epsm (-b) := by
    rw [e4]; linear_combination -epsm (-(b - 1)) * q4
  simp only [dnm_lad, Ht]
  rw [e1, e2', e3, e4']
  linear_combination (epsm a * epsm (-b) / 2) * (h + lad n a * dcs c s n (a + 1) b * q1
    - lad n (a - 1) * dcs c s n (a - 1) b * q2 + lad n b * dcs c s n a (b + 1) * q3
    - lad n (b - 1) * dcs c s n a (b - 1) * q4)

theorem Ht_symm (n : ℕ) (a b : ℤ) (ha : a.natAbs ≤ n) (hb : b.natAbs ≤ n) :
    Ht n c s a b = Ht n c s b a := by
  have key : ∀ a : ℤ, epsm a = (-1) ^ a * epsm (-a) := by
    intro a
    rw [epsm, epsm]
    rcases lt_trichotomy a 0 with h | h | h
    · rw [if_neg (by omega), if_pos (by omega), zpow_neg]; rw [mul_inv_cancel₀]
      exact zpow_ne_zero _ (by norm_num)
    · subst h; simp
    · rw [if_pos (by omega), if_neg (by omega), mul_one]
  rw [Ht, Ht, dcs_trans c s n a b ha hb, key a, key b]
  linear_combination (epsm (-a) * epsm (-b) * (-1) ^ b * dcs c s n b a) * negone_sq_int a

theorem Ht_neg (n : ℕ) (a b : ℤ) (ha : a.natAbs ≤ n) (hb : b.natAbs ≤ n) :
    Ht n c s (-b) (-a) = Ht n c s a b := by
  rw [Ht, Ht, dcs_neg_idx c s n b a hb ha, dcs_trans c s n a b ha hb, neg_neg]
  ring

/-! ## row 0 -/

theorem vPoly_eq (c s : ℝ) (n : ℕ) : vPoly (c ^ 2 - s ^ 2) (2 * s * c) ^ n = wp c s (2 * n) n := by
  rw [wp, show 2 * n - n = n by omega, ← mul_pow]
  congr 1
  rw [vPoly, show -(2 * s * c) / 2 = -(s * c) by ring, show 2 * s * c / 2 = s * c by ring]
  simp only [C_sub, C_mul, C_pow, C_neg]
  ring

theorem hInit_row (n : ℕ) (beta : ℝ) (hs : 0 ≤ Real.sin beta) (m : ℤ) (h0 : 0 ≤ m) (hm : m ≤ n) :
    hInit n beta 0 m = Ht n (Real.cos (beta / 2)) (Real.sin (beta / 2)) 0 m := by
  set c := Real.cos (beta / 2) with hc
  set s := Real.sin (beta / 2) with hsd
  have e1 : Real.cos beta = c ^ 2 - s ^ 2 := by
    rw [hc, hsd, ← Real.cos_two_mul']; congr 1; ring
  have e2 : Real.sin beta = 2 * s * c := by
    rw [hc, hsd, ← Real.sin_two_mul]; congr 1; ring
  have hcs : c ^ 2 + s ^ 2 = 1 := by rw [hc, hsd]; exact Real.cos_sq_add_sin_sq _
  obtain ⟨k, rfl⟩ := Int.eq_ofNat_of_zero_le h0
  have hk : k ≤ n := by omega
  rw [hInit, setRow, if_pos ⟨rfl, h0, hm⟩]
  simp only [Int.ofNat_eq_natCast, Int.toNat_natCast]
  rw [lpmv_eq (Real.cos beta) (Real.sin beta) hs (Real.cos_sq_add_sin_sq _) k n hk, e1, e2, vPoly_eq]
  have hr : rfac ((n : ℤ) - k) (n + k) = fct (n - k) / fct (n + k) := by
    rw [rfac, Real.exp_sub, exp_gammaln _ (n - k) (by omega) (by push_cast; ring),
      exp_gammaln _ (n + k) (by omega) (by push_cast; ring)]
  have he : epsm (-(k : ℤ)) = 1 := by
    rw [epsm]; split_ifs with h
    · have : k = 0 := by omega
      subst this; simp
    · rfl
  rw [Ht, he, dcs_trans c s n 0 k (by simp) (by omega), dcs]
  have hw0 : wt n 0 = n.factorial := by
    rw [wt, add_zero, sub_zero, Real.sqrt_mul_self (fct_pos _).le]; simp [fct]
  have hsq : Real.sqrt (rfac ((n : ℤ) - k) (n + k)) * ((n + k).factorial : ℝ) = wt n k := by
    have : ((n + k).factorial : ℝ) = fct (n + k) := by
      rw [fct]; congr 2
    rw [this, hr, wt, mul_comm (fct _), ← Real.sqrt_sq (fct_pos ((n : ℤ) + k)).le,
      ← Real.sqrt_mul (by have := fct_pos (n - k); positivity), Real.sqrt_sq (fct_pos ((n : ℤ) + k)).le]
    congr 1
    have := fct_ne_zero (n + k)
    field_simp
  have : epsm 0 = 1 := by simp [epsm]
  rw [hw0, this, ← hsq]
  simp only [add_zero, zpow_zero, Int.toNat_natCast, wM,
    show ((n : ℤ) + k).toNat = n + k by omega]
  have hf : ((n.factorial : ℝ)) ≠ 0 := by exact_mod_cast n.factorial_ne_zero
  field_simp

/-! ## row 1 -/

theorem wt_up (n : ℕ) (m : ℤ) (h1 : -(n : ℤ) ≤ m) (h2 : m ≤ n) :
    wt (n + 1) (m + 1) = Real.sqrt ((n + m + 1) * (n + m + 2)) * wt n m := by
  have g1 : (0 : ℝ) ≤ n + m := by exact_mod_cast (by omega : (0 : ℤ) ≤ n + m)
  rw [wt, wt, ← Real.sqrt_mul (by positivity)]
  congr 1
  have e1 : fct (((n + 1 : ℕ) : ℤ) + (m + 1)) = (n + m + 2) * ((n + m + 1) * fct (n + m)) := by
    rw [show ((n + 1 : ℕ) : ℤ) + (m + 1) = n + m + 1 + 1 by push_cast; ring, fct_succ _ (by omega),
      fct_succ _ (by omega)]
    push_cast; ring
  rw [e1, show ((n + 1 : ℕ) : ℤ) - (m + 1) = n - m by push_cast; ring]
  ring

theorem wt_mid (n : ℕ) (m : ℤ) (h1 : -(n : ℤ) ≤ m) (h2 : m ≤ n) :
    wt (n + 1) m = Real.sqrt ((n + 1 + m) * (n + 1 - m)) * wt n m := by
  have g1 : (0 : ℝ) ≤ n + m := by exact_mod_cast (by omega : (0 : ℤ) ≤ n + m)
  have g2 : (0 : ℝ) ≤ n - m := by exact_mod_cast (by omega : (0 : ℤ) ≤ n - m)
  rw [wt, wt, ← Real.sqrt_mul (mul_nonneg (by linarith) (by linarith))]
  congr 1
  have e1 : fct (((n + 1 : ℕ) : ℤ) + m) = (n + m + 1) * fct (n + m) := by
    rw [show ((n + 1 : ℕ) : ℤ) + m = n + m + 1 by push_cast; ring, fct_succ _ (by omega)]
    push_cast; ring
  have e2 : fct (((n + 1 : ℕ) : ℤ) - m) = (n - m + 1) * fct (n - m) := by
    rw [show ((n + 1 : ℕ) : ℤ) - m = n - m + 1 by push_cast; ring, fct_succ _ (by omega)]
    push_cast; ring
  rw [e1, e2]
  ring

theorem wt_down (n : ℕ) (m : ℤ) (h1 : -(n : ℤ) ≤ m) (h2 : m ≤ n) :
    wt (n + 1) (m - 1) = Real.sqrt ((n - m + 1) * (n - m + 2)) * wt n m := by
  have h := wt_up n (-m) (by omega) (by omega)
  rw [show -m + 1 = -(m - 1) by ring, wt_neg, wt_neg] at h
  rw [h]; push_cast; ring_nf

theorem row1_identity (hcs : c ^ 2 + s ^ 2 = 1) (n : ℕ) (hn : 1 ≤ n) (m : ℤ) (h1 : 1 ≤ m)
    (h2 : m ≤ n) :
    Real.sqrt (n * (n + 1)) * dcs c s n 1 m =
      s ^ 2 * (Real.sqrt ((n + m + 1) * (n + m + 2)) * dcs c s (n + 1) 0 (m + 1))
      + c ^ 2 * (Real.sqrt ((n - m + 1) * (n - m + 2)) * dcs c s (n + 1) 0 (m - 1))
      + 2 * s * c * (Real.sqrt ((n + 1 + m) * (n + 1 - m)) * dcs c s (n + 1) 0 m) := by
  have hn0 : (0 : ℝ) ≤ n := Nat.cast_nonneg n
  have g1 : (0 : ℝ) < n + m := by exact_mod_cast (by omega : (0 : ℤ) < n + m)
  have g2 : (0 : ℝ) ≤ n - m := by exact_mod_cast (by omega : (0 : ℤ) ≤ n - m)
  have h := wM_sq c s hcs (N := 2 * n) (j := (n + m).toNat) (by omega) (n + 1)
  have hw1 : Real.sqrt (n * (n + 1)) * wt n 1 = wt (n + 1) 0 := by
    have := wt_down n 1 (by omega) (by omega)
    rw [show (1 : ℤ) - 1 = 0 by ring] at this
    rw [this]; congr 2; push_cast; ring
  have p1 : 0 < Real.sqrt ((n + m + 1 : ℝ) * (n + m + 2)) := Real.sqrt_pos.2 (by positivity)
  have p2 : 0 < Real.sqrt ((n - m + 1 : ℝ) * (n - m + 2)) := Real.sqrt_pos.2 (by positivity)
  have p3 : 0 < Real.sqrt ((n + 1 + m : ℝ) * (n + 1 - m)) :=
    Real.sqrt_pos.2 (mul_pos (by linarith) (by linarith))
  have wm := wt_ne n m
  simp only [dcs]
  rw [wt_up n m (by omega) h2, wt_down n m (by omega) h2, wt_mid n m (by omega) h2,
    show ((n : ℤ) + 1).toNat = n + 1 by omega, h,
    show (((n + 1 : ℕ) : ℤ) + 0).toNat = n + 1 by omega,
    show (((n + 1 : ℕ) : ℤ) + (m + 1)).toNat = ((n : ℤ) + m).toNat + 2 by omega,
    show (((n + 1 : ℕ) : ℤ) + (m - 1)).toNat = ((n : ℤ) + m).toNat by omega,
    show (((n + 1 : ℕ) : ℤ) + m).toNat = ((n : ℤ) + m).toNat + 1 by omega,
    show 2 * (n + 1) = 2 * n + 2 by ring, ← hw1]
  generalize Real.sqrt ((n + m + 1 : ℝ) * (n + m + 2)) = A at *
  generalize Real.sqrt ((n - m + 1 : ℝ) * (n - m + 2)) = B at *
  generalize Real.sqrt ((n + 1 + m : ℝ) * (n + 1 - m)) = D at *
  have := p1.ne'; have := p2.ne'; have := p3.ne'
  field_simp
  ring

theorem hRow1_row (n : ℕ) (hn : 1 ≤ n) (beta : ℝ) (hs : 0 ≤ Real.sin beta) (m : ℤ) (h1 : 1 ≤ m)
    (h2 : m ≤ n) (H : CMat) :
    hRow1 n beta H (hInit (n + 1) beta) 1 m =
      Ht n (Real.cos (beta / 2)) (Real.sin (beta / 2)) 1 m := by
  rw [hRow1, setRow, if_pos ⟨rfl, h1, h2⟩, hInit_row _ _ hs _ (by omega) (by push_cast; omega),
    hInit_row _ _ hs _ (by omega) (by push_cast; omega),
    hInit_row _ _ hs _ (by omega) (by push_cast; omega)]
  set c := Real.cos (beta / 2) with hc
  set s := Real.sin (beta / 2) with hsd
  have e1 : Real.cos beta = c ^ 2 - s ^ 2 := by
    rw [hc, hsd, ← Real.cos_two_mul']; congr 1; ring
  have e2 : Real.sin beta = 2 * s * c := by
    rw [hc, hsd, ← Real.sin_two_mul]; congr 1; ring
  have hcs : c ^ 2 + s ^ 2 = 1 := by rw [hc, hsd]; exact Real.cos_sq_add_sin_sq _
  have hrow := row1_identity hcs n hn m h1 h2
  have hn0 : (0 : ℝ) < n := by exact_mod_cast hn
  set Q : ℝ := Real.sqrt ((2 * n + 1) * (2 * n + 3)) with hQ
  have Qp : 0 < Q := Real.sqrt_pos.2 (by positivity)
  have b1 : bnm (n + 1) (-m - 1) = -(Real.sqrt ((n + m + 1) * (n + m + 2)) / Q) := by
    rw [bnm, rsign, if_pos (by omega), hQ, ← Real.sqrt_div' _ (by positivity)]
    rw [neg_one_mul]; congr 2; push_cast; ring
  have b2 : bnm (n + 1) (m - 1) = Real.sqrt ((n - m + 1) * (n - m + 2)) / Q := by
    rw [bnm, rsign, if_neg (by omega), hQ, ← Real.sqrt_div' _ (by positivity)]
    rw [one_mul]; congr 1; push_cast; ring
  have b0 : bnm (n + 1) 0 = Real.sqrt (n * (n + 1)) / Q := by
    rw [bnm, rsign, if_neg (by omega), hQ, ← Real.sqrt_div' _ (by positivity)]
    rw [one_mul]; congr 1; push_cast; ring
  have a0 : anm n m = Real.sqrt ((n + 1 + m) * (n + 1 - m)) / Q := by
    rw [anm, hQ, ← Real.sqrt_div' _ (by positivity)]
    congr 1
  have hp0 : 0 < Real.sqrt ((n : ℝ) * (n + 1)) := Real.sqrt_pos.2 (by positivity)
  have ep : ∀ k : ℤ, 0 ≤ k → epsm (-k) = 1 := by
    intro k hk
    rw [epsm]; split_ifs with h
    · have : k = 0 := by omega
      subst this; simp
    · rfl
  simp only [Ht]
  rw [b1, b2, b0, a0, ep _ (by omega), ep _ (by omega), ep _ (by omega),
    show epsm 0 = 1 by simp [epsm], show epsm 1 = -1 by simp [epsm], e1, e2]
  have hc2 : (1 - (c ^ 2 - s ^ 2)) / 2 = s ^ 2 := by linear_combination -(1 / 2) * hcs
  have hc3 : (1 + (c ^ 2 - s ^ 2)) / 2 = c ^ 2 := by linear_combination -(1 / 2) * hcs
  rw [mul_div_assoc, mul_div_assoc (Real.sqrt ((n - m + 1 : ℝ) * (n - m + 2)) / Q), hc2, hc3,
    div_eq_iff (by positivity)]
  generalize Real.sqrt ((n : ℝ) * (n + 1)) = E at *
  generalize Real.sqrt ((n + m + 1 : ℝ) * (n + m + 2)) = A at *
  generalize Real.sqrt ((n - m + 1 : ℝ) * (n - m + 2)) = B at *
  generalize Real.sqrt ((n + 1 + m : ℝ) * (n + 1 - m)) = D at *
  field_simp
  linear_combination hrow

/-! ## the wedge -/

/-- What the recursion has filled in after `K` passes. -/
noncomputable def wedgeT (n : ℕ) (c s : ℝ) (K : ℤ) (a b : ℤ) : ℝ :=
  if |a| ≤ K + 1 ∧ |a| ≤ b ∧ b ≤ n then Ht n c s a b else 0

theorem lad_pos (n : ℕ) (a : ℤ) (h1 : -(n : ℤ) - 1 < a) (h2 : a < n) : 0 < lad n a := by
  have g1 : (0 : ℝ) < n + a + 1 := by exact_mod_cast (by omega : (0 : ℤ) < n + a + 1)
  have g2 : (0 : ℝ) < n - a := by exact_mod_cast (by omega : (0 : ℤ) < n - a)
  exact Real.sqrt_pos.2 (mul_pos g2 g1)

theorem dnm_ne (n : ℕ) (a : ℤ) (h1 : -(n : ℤ) - 1 < a) (h2 : a < n) : dnm n a ≠ 0 := by
  rw [dnm_lad]
  have := (lad_pos n a h1 h2).ne'
  have h3 : rsign a ≠ 0 := by intro h; have := rsign_sq a; rw [h] at this; norm_num at this
  positivity

theorem dnm_top (n : ℕ) : dnm n n = 0 := by rw [dnm_lad, lad_top]; simp

/-- One pass of step 5. -/
theorem hStep5_eq (hcs : c ^ 2 + s ^ 2 = 1) (n : ℕ) (mp : ℤ) (h0 : 0 ≤ mp) (hmp : mp < n) (H : CMat)
    (hH : ∀ b, mp ≤ b → b ≤ n → H (-mp) b = Ht n c s (-mp) b)
    (hH1 : ∀ b, mp + 1 ≤ b → b ≤ n → H (-mp + 1) b = Ht n c s (-mp + 1) b) (a b : ℤ) :
    hStep5 n mp H a b = if a = -mp - 1 ∧ mp + 1 ≤ b ∧ b ≤ n then Ht n c s a b else H a b := by
  by_cases ha : a = -mp - 1
  · subst ha
    by_cases hb : mp + 1 ≤ b ∧ b ≤ n
    · rw [if_pos ⟨rfl, hb⟩]
      have hl := Ht_ladder hcs n (-mp) b (by omega) (by omega)
      have hd := dnm_ne n (-mp - 1) (by omega) (by omega)
      by_cases hbn : b = n
      · subst hbn
        simp only [hStep5]
        rw [setRow, if_pos ⟨rfl, le_refl _, le_refl _⟩, div_eq_iff hd]
        rw [setRow, setRow, if_neg (by omega), if_neg (by omega), hH1 _ hb.1 hb.2,
          hH _ (by omega) (by omega)]
        rw [dnm_top] at hl
        linear_combination -hl
      · simp only [hStep5]
        rw [setRow, if_neg (by omega), setRow, if_pos ⟨rfl, hb.1, by omega⟩, div_eq_iff hd]
        rw [hH1 _ hb.1 hb.2, hH _ (by omega) (by omega), hH _ (by omega) (by omega)]
        linear_combination -hl
    · rw [if_neg (by tauto)]
      simp only [hStep5]
      rw [setRow, if_neg (by omega), setRow, if_neg (by omega)]
  · rw [if_neg (by tauto)]
    simp only [hStep5]
    rw [setRow, if_neg (by tauto), setRow, if_neg (by tauto)]

/-- One pass of step 4. -/
theorem hStep4_eq (hcs : c ^ 2 + s ^ 2 = 1) (n : ℕ) (mp : ℤ) (h0 : 0 ≤ mp) (hmp : mp < n) (H : CMat)
    (hH : ∀ b, mp ≤ b → b ≤ n → H mp b = Ht n c s mp b)
    (hH1 : ∀ b, mp + 1 ≤ b → b ≤ n → H (mp - 1) b = Ht n c s (mp - 1) b) (a b : ℤ) :
    hStep4 n mp H a b = if a = mp + 1 ∧ mp + 1 ≤ b ∧ b ≤ n then Ht n c s a b else H a b := by
  by_cases ha : a = mp + 1
  · subst ha
    by_cases hb : mp + 1 ≤ b ∧ b ≤ n
    · rw [if_pos ⟨rfl, hb⟩]
      have hl := Ht_ladder hcs n mp b (by omega) (by omega)
      have hd := dnm_ne n mp (by omega) (by omega)
      by_cases hbn : b = n
      · subst hbn
        simp only [hStep4]
        rw [setRow, if_pos ⟨rfl, le_refl _, le_refl _⟩, div_eq_iff hd]
        rw [setRow, setRow, if_neg (by omega), if_neg (by omega), hH1 _ hb.1 hb.2,
          hH _ (by omega) (by omega)]
        rw [dnm_top] at hl
        linear_combination hl
      · simp only [hStep4]
        rw [setRow, if_neg (by omega), setRow, if_pos ⟨rfl, hb.1, by omega⟩, div_eq_iff hd]
        rw [hH1 _ hb.1 hb.2, hH _ (by omega) (by omega), hH _ (by omega) (by omega)]
        linear_combination hl
    · rw [if_neg (by tauto)]
      simp only [hStep4]
      rw [setRow, if_neg (by omega), setRow, if_neg (by omega)]
  · rw [if_neg (by tauto)]
    simp only [hStep4]
    rw [setRow, if_neg (by tauto), setRow, if_neg (by tauto)]

theorem hWedge_eq (n : ℕ) (beta : ℝ) (hs : 0 ≤ Real.sin beta) (K : ℕ) (hK : K < n) (a b : ℤ) :
    hWedge n beta K a b = wedgeT n (Real.cos (beta / 2)) (Real.sin (beta / 2)) K a b := by
  have hcs : Real.cos (beta / 2) ^ 2 + Real.sin (beta / 2) ^ 2 = 1 := Real.cos_sq_add_sin_sq _
  induction K generalizing a b with
  | zero =>
    rw [hWedge]
    have r0 : ∀ b : ℤ, 0 ≤ b → b ≤ n → hRow1 n beta (hInit n beta) (hInit (n + 1) beta) 0 b =
        Ht n (Real.cos (beta / 2)) (Real.sin (beta / 2)) 0 b := by
      intro b h1 h2
      rw [hRow1, setRow, if_neg (by omega), hInit_row n beta hs b h1 h2]
    rw [hStep5_eq hcs n 0 le_rfl (by omega) _ r0
      (fun b h1 h2 => hRow1_row n (by omega) beta hs b h1 h2 _), wedgeT]
    by_cases h1 : a = -0 - 1 ∧ (0 : ℤ) + 1 ≤ b ∧ b ≤ n
    · rw [if_pos h1, if_pos]
      obtain ⟨rfl, h2, h3⟩ := h1
      norm_num; omega
    · rw [if_neg h1]
      by_cases h2 : a = 1
      · subst h2
        by_cases h3 : 1 ≤ b ∧ b ≤ n
        · rw [hRow1_row n (by omega) beta hs b h3.1 h3.2, if_pos]
          norm_num; omega
        · rw [hRow1, setRow, if_neg (by tauto), hInit, setRow, if_neg (by omega), if_neg]
          norm_num; omega
      · by_cases h3 : a = 0 ∧ 0 ≤ b ∧ b ≤ n
        · obtain ⟨rfl, h3, h4⟩ := h3
          rw [r0 b h3 h4, if_pos]
          norm_num; omega
        · rw [hRow1, setRow, if_neg (by tauto), hInit, setRow, if_neg (by tauto), if_neg]
          rw [Int.abs_eq_natAbs]
          omega
  | succ K ih =>
    rw [hWedge]
    have ih' := ih (by omega)
    have g5 := hStep5_eq hcs n (K + 1) (by omega) (by omega) (hWedge n beta K)
      (fun b h1 h2 => by
        rw [ih', wedgeT, if_pos]
        rw [Int.abs_eq_natAbs]; omega)
      (fun b h1 h2 => by
        rw [ih', wedgeT, if_pos]
        rw [Int.abs_eq_natAbs]; omega)
    rw [hStep4_eq hcs n (K + 1) (by omega) (by omega)]
    · rw [g5, ih', wedgeT, wedgeT]
      simp only [Int.abs_eq_natAbs]
      rw [show ((K + 1 : ℕ) : ℤ) = (K : ℤ) + 1 by push_cast; rfl]
      by_cases h1 : a = (K : ℤ) + 1 + 1 ∧ (K : ℤ) + 1 + 1 ≤ b ∧ b ≤ n
      · rw [if_pos h1, if_pos (by omega)]
      · rw [if_neg h1]
        by_cases h2 : a = -((K : ℤ) + 1) - 1 ∧ (K : ℤ) + 1 + 1 ≤ b ∧ b ≤ n
        · rw [if_pos h2, if_pos (by omega)]
        · rw [if_neg h2]
          by_cases h3 : (a.natAbs : ℤ) ≤ K + 1 ∧ (a.natAbs : ℤ) ≤ b ∧ b ≤ n
          · rw [if_pos h3, if_pos (by omega)]
          · rw [if_neg h3, if_neg (by omega)]
    · intro b h1 h2
      rw [g5, if_neg (by omega), ih', wedgeT, if_pos]
      rw [Int.abs_eq_natAbs]; omega
    · intro b h1 h2
      rw [g5, if_neg (by omega), ih', wedgeT, if_pos]
      rw [Int.abs_eq_natAbs]; omega

/-- The completed matrix. -/
theorem hFull_eq (n : ℕ) (hn : 1 ≤ n) (beta : ℝ) (hs : 0 ≤ Real.sin beta) (a b : ℤ)
    (ha : a.natAbs ≤ n) (hb : b.natAbs ≤ n) :
    hFull n beta a b = Ht n (Real.cos (beta / 2)) (Real.sin (beta / 2)) a b := by
  have hW : ∀ a b : ℤ, hWedge n beta (n - 1) a b =
      if |a| ≤ b ∧ b ≤ n then Ht n (Real.cos (beta / 2)) (Real.sin (beta / 2)) a b else 0 := by
    intro a b
    rw [hWedge_eq n beta hs (n - 1) (by omega), wedgeT]
    apply if_congr _ rfl rfl
    rw [Int.abs_eq_natAbs]; omega
  generalize hcc : Real.cos (beta / 2) = c at *
  generalize hss : Real.sin (beta / 2) = s at *
  have hC : ∀ a b : ℤ, a.natAbs ≤ n → b.natAbs ≤ n → copy_tri (hWedge n beta (n - 1)) a b =
      if 0 ≤ a + b then Ht n c s a b else 0 := by
    intro a b ha hb
    rw [copy_tri, hW, hW, hW]
    simp only [Int.abs_eq_natAbs]
    by_cases h : 0 ≤ a + b
    · rw [if_pos h]
      rcases lt_trichotomy a b with h1 | h1 | h1
      · rw [if_pos (by omega), if_neg (by omega), if_neg (by omega)]; ring
      · subst h1
        rw [if_pos (by omega), if_pos rfl]; ring
      · rw [if_neg (by omega), if_pos (by omega), if_neg (by omega), Ht_symm n b a hb ha]; ring
    · rw [if_neg h, if_neg (by omega), if_neg (by omega)]
      split_ifs <;> first | omega | ring
  rw [hFull, rot90, copy_tri]
  simp only [rot90inv]
  rw [hC _ _ (by omega) (by omega), hC _ _ (by omega) (by omega),
    hC _ _ (by omega) (by omega), neg_neg]
  rcases lt_trichotomy (-a) b with h | h | h
  · rw [if_pos (by omega), if_neg (by omega), if_neg (by omega)]; ring
  · subst h
    rw [if_pos (by omega), if_pos rfl, if_pos (by omega), neg_neg]; ring
  · rw [if_neg (by omega), if_pos (by omega), if_neg (by omega), Ht_neg n a b ha hb]; ring

end Newt
