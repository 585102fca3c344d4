import Verif.Proofs.WignerPoly
import Verif.Proofs.ClebschGordan
import Verif.Proofs.Translations
import Verif.Model.Rotations

/-! # Wigner's small d matrix in closed polynomial form and its identities -/

namespace Newt

open Polynomial Spec

/-- `sqrt((l+a)! (l-a)!)`. -/
noncomputable def wt (l : ℕ) (a : ℤ) : ℝ := Real.sqrt (fct (l + a) * fct (l - a))

theorem wt_pos (l : ℕ) (a : ℤ) : 0 < wt l a :=
  Real.sqrt_pos.2 (mul_pos (fct_pos _) (fct_pos _))

theorem wt_ne (l : ℕ) (a : ℤ) : wt l a ≠ 0 := (wt_pos l a).ne'

theorem wt_sq (l : ℕ) (a : ℤ) : wt l a ^ 2 = fct (l + a) * fct (l - a) :=
  Real.sq_sqrt (mul_pos (fct_pos _) (fct_pos _)).le

theorem wt_neg (l : ℕ) (a : ℤ) : wt l (-a) = wt l a := by
  rw [wt, wt, sub_neg_eq_add, ← sub_eq_add_neg, mul_comm]

/-- Twice the ladder coefficient. -/
noncomputable def lad (l : ℕ) (a : ℤ) : ℝ := Real.sqrt ((l - a) * (l + a + 1))

theorem lad_wt (l : ℕ) (a : ℤ) (h1 : -(l : ℤ) ≤ a) (h2 : a < l) :
    lad l a * wt l (a + 1) = (l + a + 1) * wt l a := by
  have g1 : (0 : ℝ) ≤ l + a := by exact_mod_cast (by omega : (0 : ℤ) ≤ l + a)
  have g2 : (0 : ℝ) ≤ l - a := by exact_mod_cast (by omega : (0 : ℤ) ≤ l - a)
  have e1 : fct (l + (a + 1)) = (l + a + 1) * fct (l + a) := by
    rw [show (l : ℤ) + (a + 1) = l + a + 1 by ring, fct_succ _ (by omega)]; push_cast; ring
  have e2 : fct (l - a) = (l - a) * fct (l - (a + 1)) := by
    rw [show (l : ℤ) - a = l - (a + 1) + 1 by ring, fct_succ _ (by omega)]; push_cast; ring
  rw [lad, wt, wt, ← Real.sqrt_mul (by positivity), e1, e2,
    show ((l - a) * (l + a + 1) * ((l + a + 1) * fct (l + a) * fct (l - (a + 1))) : ℝ) =
      (l + a + 1) ^ 2 * (fct (l + a) * ((l - a) * fct (l - (a + 1)))) by ring,
    Real.sqrt_mul (by positivity), Real.sqrt_sq (by positivity)]

theorem lad_wt' (l : ℕ) (a : ℤ) (h1 : -(l : ℤ) ≤ a) (h2 : a < l) :
    lad l a * wt l a = (l - a) * wt l (a + 1) := by
  have h := lad_wt l (-a - 1) (by omega) (by omega)
  have e : lad l (-a - 1) = lad l a := by
    rw [lad, lad]; congr 1; push_cast; ring
  rw [e, show -a - 1 + 1 = -a by ring, wt_neg, show -a - 1 = -(a + 1) by ring, wt_neg] at h
  rw [h]; push_cast; ring

theorem lad_top (l : ℕ) : lad l l = 0 := by simp [lad]

theorem lad_bot (l : ℕ) : lad l (-l - 1) = 0 := by
  rw [lad]; push_cast; rw [show ((l : ℝ) + (-l - 1) + 1) = 0 by ring, mul_zero, Real.sqrt_zero]

/-- The small d matrix with half-angle cosine and sine `c`, `s`. -/
noncomputable def dcs (c s : ℝ) (l : ℕ) (a b : ℤ) : ℝ :=
  wt l a / wt l b * wM c s (2 * l) (l + a).toNat (l + b).toNat

/-- Wigner's small d matrix. -/
noncomputable def smalld (l : ℕ) (beta : ℝ) (a b : ℤ) : ℝ :=
  dcs (Real.cos (beta / 2)) (Real.sin (beta / 2)) l a b

theorem negone_toNat (l : ℕ) (a : ℤ) (h : -(l : ℤ) ≤ a) :
    ((-1 : ℝ)) ^ ((l : ℤ) + a).toNat = (-1) ^ l * (-1) ^ a := by
  rw [← zpow_natCast, Int.toNat_of_nonneg (by omega), zpow_add₀ (by norm_num), zpow_natCast]

theorem negone_sq_nat (l : ℕ) : ((-1 : ℝ)) ^ l * (-1) ^ l = 1 := by rw [← mul_pow]; simp
theorem negone_sq_int (l : ℤ) : ((-1 : ℝ)) ^ l * (-1) ^ l = 1 := by
  rw [← mul_zpow]; simp

theorem dcs_trans (c s : ℝ) (l : ℕ) (a b : ℤ) (ha : a.natAbs ≤ l) (hb : b.natAbs ≤ l) :
    dcs c s l a b = (-1) ^ a * (-1) ^ b * dcs c s l b a := by
  have h := wM_transpose c s (N := 2 * l) (i := (l + a).toNat) (j := (l + b).toNat)
    (by omega) (by omega)
  rw [negone_toNat l a (by omega), negone_toNat l b (by omega),
    show 2 * l - ((l : ℤ) + a).toNat = ((l : ℤ) - a).toNat by omega,
    show 2 * l - ((l : ℤ) + b).toNat = ((l : ℤ) - b).toNat by omega] at h
  change fct (l + a) * fct (l - a) * _ = _ * (fct (l + b) * fct (l - b) * _) at h
  rw [← wt_sq, ← wt_sq] at h
  have ha := wt_ne l a
  have hb := wt_ne l b
  have e := negone_sq_nat l
  rw [dcs, dcs]
  field_simp
  linear_combination h + (-1) ^ a * (-1) ^ b * wt l b ^ 2 *
    wM c s (2 * l) ((l : ℤ) + b).toNat ((l : ℤ) + a).toNat * e

theorem dcs_neg_idx (c s : ℝ) (l : ℕ) (a b : ℤ) (ha : a.natAbs ≤ l) (hb : b.natAbs ≤ l) :
    dcs c s l (-a) (-b) = (-1) ^ a * (-1) ^ b * dcs c s l a b := by
  have h := wM_rev c s (N := 2 * l) (i := (l + a).toNat) (j := (l + b).toNat) (by omega) (by omega)
  rw [negone_toNat l a (by omega), negone_toNat l b (by omega),
    show 2 * l - ((l : ℤ) + a).toNat = ((l : ℤ) + -a).toNat by omega,
    show 2 * l - ((l : ℤ) + b).toNat = ((l : ℤ) + -b).toNat by omega] at h
  have e := negone_sq_nat l
  rw [dcs, dcs, wt_neg, wt_neg, h]
  linear_combination (wt l a / wt l b * (-1) ^ a * (-1) ^ b *
    wM c s (2 * l) ((l : ℤ) + a).toNat ((l : ℤ) + b).toNat) * e

theorem dcs_neg_s (c s : ℝ) (l : ℕ) (a b : ℤ) (ha : a.natAbs ≤ l) (hb : b.natAbs ≤ l) :
    dcs c (-s) l a b = (-1) ^ a * (-1) ^ b * dcs c s l a b := by
  have e := negone_sq_nat l
  rw [dcs, dcs, wM_neg_s, negone_toNat l a (by omega), negone_toNat l b (by omega)]
  linear_combination (wt l a / wt l b * (-1) ^ a * (-1) ^ b *
    wM c s (2 * l) ((l : ℤ) + a).toNat ((l : ℤ) + b).toNat) * e

theorem dcs_neg (c s : ℝ) (l : ℕ) (a b : ℤ) (hb : b.natAbs ≤ l) :
    dcs (-c) (-s) l a b = dcs c s l a b := by
  rw [dcs, dcs, wM_neg _ _ _ _ _ (by omega) (even_two_mul l)]

theorem dcs_ladder (c s : ℝ) (hcs : c ^ 2 + s ^ 2 = 1) (l : ℕ) (a b : ℤ) (ha : a.natAbs ≤ l)
    (hb : b.natAbs ≤ l) :
    lad l a * dcs c s l (a + 1) b - lad l (a - 1) * dcs c s l (a - 1) b =
      lad l (b - 1) * dcs c s l a (b - 1) - lad l b * dcs c s l a (b + 1) := by
  have h := wM_ladder c s hcs (N := 2 * l) (j := (l + b).toNat) (by omega) (l + a).toNat
  have ra : (((l : ℤ) + a).toNat : ℝ) = l + a := by
    have : ((((l : ℤ) + a).toNat : ℤ) : ℝ) = ((l + a : ℤ) : ℝ) := by
      rw [Int.toNat_of_nonneg (by omega)]
    push_cast at this; exact this
  have rb : (((l : ℤ) + b).toNat : ℝ) = l + b := by
    have : ((((l : ℤ) + b).toNat : ℤ) : ℝ) = ((l + b : ℤ) : ℝ) := by
      rw [Int.toNat_of_nonneg (by omega)]
    push_cast at this; exact this
  rw [ra, rb, show ((l : ℤ) + a).toNat + 1 = ((l : ℤ) + (a + 1)).toNat by omega,
    show ((l : ℤ) + a).toNat - 1 = ((l : ℤ) + (a - 1)).toNat by omega,
    show ((l : ℤ) + b).toNat - 1 = ((l : ℤ) + (b - 1)).toNat by omega,
    show ((l : ℤ) + b).toNat + 1 = ((l : ℤ) + (b + 1)).toNat by omega] at h
  have wa := wt_ne l a
  have wb := wt_ne l b
  have t1 : lad l a * dcs c s l (a + 1) b = wt l a / wt l b *
      ((l + a + 1) * wM c s (2 * l) ((l : ℤ) + (a + 1)).toNat ((l : ℤ) + b).toNat) := by
    by_cases hh : a = l
    · subst hh
      rw [lad_top, wM_out _ _ (by omega) (by omega)]; simp
    · have := lad_wt l a (by omega) (by omega)
      rw [dcs]; field_simp; linear_combination wM c s (2 * l) ((l : ℤ) + (a + 1)).toNat ((l : ℤ) + b).toNat * this
  have t2 : lad l (a - 1) * dcs c s l (a - 1) b = wt l a / wt l b *
      (if ((l : ℤ) + a).toNat = 0 then 0 else
        (((2 * l : ℕ) : ℝ) - (l + a) + 1) * wM c s (2 * l) ((l : ℤ) + (a - 1)).toNat ((l : ℤ) + b).toNat) := by
    by_cases hh : a = -l
    · subst hh
      rw [lad_bot, if_pos (by omega)]; simp
    · have := lad_wt' l (a - 1) (by omega) (by omega)
      rw [show a - 1 + 1 = a by ring] at this
      rw [if_neg (by omega), dcs]; push_cast at this ⊢; field_simp
      linear_combination wM c s (2 * l) ((l : ℤ) + (a - 1)).toNat ((l : ℤ) + b).toNat * this
  have t3 : lad l (b - 1) * dcs c s l a (b - 1) = wt l a / wt l b *
      ((l + b) * wM c s (2 * l) ((l : ℤ) + a).toNat ((l : ℤ) + (b - 1)).toNat) := by
    by_cases hh : b = -l
    · subst hh
      rw [lad_bot]; push_cast; ring
    · have := lad_wt l (b - 1) (by omega) (by omega)
      have w3 := wt_ne l (b - 1)
      rw [show b - 1 + 1 = b by ring] at this
      rw [dcs]; push_cast at this ⊢; field_simp
      linear_combination wM c s (2 * l) ((l : ℤ) + a).toNat ((l : ℤ) + (b - 1)).toNat * this
  have t4 : lad l b * dcs c s l a (b + 1) = wt l a / wt l b *
      ((((2 * l : ℕ) : ℝ) - (l + b)) * wM c s (2 * l) ((l : ℤ) + a).toNat ((l : ℤ) + (b + 1)).toNat) := by
    by_cases hh : b = l
    · subst hh
      rw [lad_top]; push_cast; ring
    · have := lad_wt' l b (by omega) (by omega)
      have w3 := wt_ne l (b + 1)
      rw [dcs]; push_cast at this ⊢; field_simp
      linear_combination wM c s (2 * l) ((l : ℤ) + a).toNat ((l : ℤ) + (b + 1)).toNat * this
  rw [t1, t2, t3, t4, ← mul_sub, ← mul_sub, h]

theorem sum_Icc_range (l : ℕ) (f : ℤ → ℝ) :
    ∑ b ∈ Finset.Icc (-(l : ℤ)) l, f b = ∑ j ∈ Finset.range (2 * l + 1), f ((j : ℤ) - l) := by
  symm
  refine Finset.sum_bij (fun (i : ℕ) _ => (i : ℤ) - l) ?_ ?_ ?_ ?_
  · intro a ha; simp only [Finset.mem_range, Finset.mem_Icc] at *; omega
  · intro a _ b _ h; omega
  · intro b hb
    simp only [Finset.mem_Icc] at hb
    exact ⟨(b + l).toNat, by simp only [Finset.mem_range]; omega, by omega⟩
  · intro a _; rfl

/-- Composition. -/
theorem dcs_mul (c s c' s' : ℝ) (l : ℕ) (a k : ℤ) (hk : k.natAbs ≤ l) :
    ∑ b ∈ Finset.Icc (-(l : ℤ)) l, dcs c s l a b * dcs c' s' l b k =
      dcs (c * c' - s * s') (s * c' + c * s') l a k := by
  rw [sum_Icc_range, dcs, ← wM_mul _ _ _ _ _ _ _ (by omega), Finset.mul_sum]
  apply Finset.sum_congr rfl
  intro j hj
  have := wt_ne l ((j : ℤ) - l)
  rw [dcs, dcs, show ((l : ℤ) + (j - l)).toNat = j by omega]
  field_simp

theorem dcs_one (l : ℕ) (a b : ℤ) (ha : a.natAbs ≤ l) (hb : b.natAbs ≤ l) :
    dcs 1 0 l a b = if a = b then 1 else 0 := by
  rw [dcs, wM_one _ _ _ (by omega)]
  by_cases h : a = b
  · subst h; simp [wt_ne]
  · rw [if_neg (by omega), if_neg h, mul_zero]

/-- Orthogonality. -/
theorem dcs_orth (c s : ℝ) (h : c ^ 2 + s ^ 2 = 1) (l : ℕ) (a b : ℤ) (ha : a.natAbs ≤ l)
    (hb : b.natAbs ≤ l) :
    ∑ k ∈ Finset.Icc (-(l : ℤ)) l, dcs c s l a k * dcs c s l b k = if a = b then 1 else 0 := by
  rw [← dcs_one l a b ha hb]
  have h1 := dcs_mul c s c (-s) l a b hb
  rw [show c * c - s * -s = 1 by linarith, show s * c + c * -s = 0 by ring] at h1
  rw [← h1]
  apply Finset.sum_congr rfl
  intro k hk
  rw [Finset.mem_Icc] at hk
  rw [dcs_neg_s c s l k b (by omega) hb, dcs_trans c s l b k hb (by omega)]
  ring

theorem dcs_orth' (c s : ℝ) (h : c ^ 2 + s ^ 2 = 1) (l : ℕ) (a b : ℤ) (ha : a.natAbs ≤ l)
    (hb : b.natAbs ≤ l) :
    ∑ k ∈ Finset.Icc (-(l : ℤ)) l, dcs c s l k a * dcs c s l k b = if a = b then 1 else 0 := by
  rw [← dcs_orth c s h l a b ha hb]
  have e : ∀ k ∈ Finset.Icc (-(l : ℤ)) l, dcs c s l k a * dcs c s l k b =
      ((-1) ^ a * (-1) ^ b) * (dcs c s l a k * dcs c s l b k) := by
    intro k hk
    rw [Finset.mem_Icc] at hk
    rw [dcs_trans c s l k a (by omega) ha, dcs_trans c s l k b (by omega) hb]
    linear_combination ((-1) ^ a * (-1) ^ b) * (dcs c s l a k * dcs c s l b k) * negone_sq_int k
  rw [Finset.sum_congr rfl e, ← Finset.mul_sum, dcs_orth c s h l a b ha hb]
  split_ifs with hab
  · rw [hab, negone_sq_int]; simp
  · simp

end Newt
