import Verif.Props.Rotations
import Verif.Spec.Wigner

/-!
# C104: symmetries and explicit entries of the Wigner matrices
-/

namespace Newt

open Spec

theorem dcs_pi (l : ℕ) (a b : ℤ) (ha : a.natAbs ≤ l) (hb : b.natAbs ≤ l) :
    dcs 0 1 l a b = if a = -b then (-1) ^ (l - b : ℤ).toNat else 0 := by
  rw [dcs, wM_pi]
  by_cases h : a = -b
  · subst h
    rw [if_pos (by omega), if_pos rfl, wt_neg, div_self (wt_ne l b), one_mul]
    congr 1; omega
  · rw [if_neg (by omega), if_neg h, mul_zero]

theorem smalld_pi_add (l : ℕ) (beta : ℝ) (a b : ℤ) (_ : a.natAbs ≤ l) (hb : b.natAbs ≤ l) :
    smalld l (Real.pi + beta) a b = (-1) ^ (l - b : ℤ).toNat * smalld l beta a (-b) := by
  have h := dcs_mul (Real.cos (beta / 2)) (Real.sin (beta / 2)) 0 1 l a b hb
  rw [smalld, smalld, show (Real.pi + beta) / 2 = beta / 2 + Real.pi / 2 by ring, Real.cos_add_pi_div_two, Real.sin_add_pi_div_two,
    show (-Real.sin (beta / 2)) = Real.cos (beta / 2) * 0 - Real.sin (beta / 2) * 1 by ring,
    show dcs (Real.cos (beta / 2) * 0 - Real.sin (beta / 2) * 1) (Real.cos (beta / 2)) l a b =
      dcs (Real.cos (beta / 2) * 0 - Real.sin (beta / 2) * 1) (Real.sin (beta / 2) * 0 + Real.cos (beta / 2) * 1) l a b by ring_nf, ← h,
    Finset.sum_eq_single (-b)]
  · rw [dcs_pi l (-b) b (by omega) hb, if_pos rfl]; ring
  · intro k hk hne
    rw [Finset.mem_Icc] at hk
    rw [dcs_pi l k b (by omega) hb, if_neg hne, mul_zero]
  · intro hk
    exact absurd (Finset.mem_Icc.2 ⟨by omega, by omega⟩) hk

theorem smalld_trans (l : ℕ) (beta : ℝ) (a b : ℤ) (ha : a.natAbs ≤ l) (hb : b.natAbs ≤ l) :
    smalld l beta a b = (-1) ^ (a - b).natAbs * smalld l beta b a := by
  have e : (-1 : ℝ) ^ (a - b) = (-1) ^ a * (-1) ^ b := by
    rw [sub_eq_add_neg, zpow_add₀ (by norm_num), ← negone_natAbs (-b), Int.natAbs_neg, negone_natAbs]
  rw [smalld, smalld, dcs_trans _ _ l a b ha hb, negone_natAbs, e]

theorem smalld_anti (l : ℕ) (beta : ℝ) (a b : ℤ) (ha : a.natAbs ≤ l) (hb : b.natAbs ≤ l) :
    smalld l beta a b = smalld l beta (-b) (-a) := by
  have := negone_sq_int a
  have h2 := negone_sq_int b
  rw [smalld, smalld, dcs_neg_idx _ _ l b a hb ha, dcs_trans _ _ l b a hb ha]
  linear_combination (-(-1 : ℝ) ^ b * (-1) ^ b * dcs (Real.cos (beta / 2)) (Real.sin (beta / 2)) l a b) * this -
    dcs (Real.cos (beta / 2)) (Real.sin (beta / 2)) l a b * h2

theorem smalld_neg_trans (l : ℕ) (beta : ℝ) (a b : ℤ) (ha : a.natAbs ≤ l) (hb : b.natAbs ≤ l) :
    smalld l (-beta) a b = smalld l beta b a := by
  rw [smalld_neg l a b ha hb, smalld, smalld, dcs_trans _ _ l b a hb ha]; ring

theorem smalld_pi_sub (l : ℕ) (beta : ℝ) (a b : ℤ) (ha : a.natAbs ≤ l) (hb : b.natAbs ≤ l) :
    smalld l (Real.pi - beta) a b = (-1) ^ (l + a : ℤ).toNat * smalld l beta a (-b) := by
  have h := smalld_neg_trans l (beta - Real.pi) a b ha hb
  rw [show -(beta - Real.pi) = Real.pi - beta by ring] at h
  have h2 := smalld_pi_add l (beta - Real.pi) b (-a) hb (by omega)
  rw [show Real.pi + (beta - Real.pi) = beta by ring, neg_neg, sub_neg_eq_add] at h2
  have h3 := smalld_anti l beta b (-a) hb (by omega)
  rw [neg_neg] at h3
  rw [h, ← h3, h2, ← mul_assoc, ← mul_pow]; norm_num

theorem smalld_symm (l : ℕ) (beta : ℝ) :
    DSymm l (smalld l beta) (smalld l (Real.pi - beta)) (smalld l (Real.pi + beta)) (smalld l (-beta)) where
  transpose := smalld_trans l beta
  antitranspose := smalld_anti l beta
  supplement := smalld_pi_sub l beta
  opposite := smalld_pi_add l beta
  inverse := smalld_neg_trans l beta
  sign a b ha hb := by
    rw [smalld_neg_trans l beta a b ha hb, smalld_trans l beta b a hb ha, ← neg_sub, Int.natAbs_neg]

theorem Spec.DSymm.congr {l : ℕ} {d dm dp dn d' dm' dp' dn' : ℤ → ℤ → ℝ} (h : DSymm l d dm dp dn)
    (h1 : ∀ a b : ℤ, a.natAbs ≤ l → b.natAbs ≤ l → d' a b = d a b) (h2 : ∀ a b : ℤ, a.natAbs ≤ l → b.natAbs ≤ l → dm' a b = dm a b)
    (h3 : ∀ a b : ℤ, a.natAbs ≤ l → b.natAbs ≤ l → dp' a b = dp a b) (h4 : ∀ a b : ℤ, a.natAbs ≤ l → b.natAbs ≤ l → dn' a b = dn a b) :
    DSymm l d' dm' dp' dn' where
  transpose a b ha hb := by rw [h1 a b ha hb, h1 b a hb ha]; exact h.transpose a b ha hb
  antitranspose a b ha hb := by rw [h1 a b ha hb, h1 (-b) (-a) (by omega) (by omega)]; exact h.antitranspose a b ha hb
  supplement a b ha hb := by rw [h2 a b ha hb, h1 a (-b) ha (by omega)]; exact h.supplement a b ha hb
  opposite a b ha hb := by rw [h3 a b ha hb, h1 a (-b) ha (by omega)]; exact h.opposite a b ha hb
  inverse a b ha hb := by rw [h4 a b ha hb, h1 b a hb ha]; exact h.inverse a b ha hb
  sign a b ha hb := by rw [h4 a b ha hb, h1 a b ha hb]; exact h.sign a b ha hb

/-- C104: the recursively computed matrices of `dlmn` have all symmetries, in every degree and for every angle. -/
theorem C104_dlmn_symmetries (L : ℕ) (hL : 1 ≤ L) (beta : ℝ) :
    ∃ d dm dp dn, dlmn L beta = some d ∧ dlmn L (Real.pi - beta) = some dm ∧ dlmn L (Real.pi + beta) = some dp ∧
      dlmn L (-beta) = some dn ∧
      ∀ l ≤ L, DSymm l (d.getD l 0) (dm.getD l 0) (dp.getD l 0) (dn.getD l 0) := by
  obtain ⟨d, d1, -, d3⟩ := dlmn_some L hL beta
  obtain ⟨dm, m1, -, m3⟩ := dlmn_some L hL (Real.pi - beta)
  obtain ⟨dp, p1, -, p3⟩ := dlmn_some L hL (Real.pi + beta)
  obtain ⟨dn, n1, -, n3⟩ := dlmn_some L hL (-beta)
  exact ⟨d, dm, dp, dn, d1, m1, p1, n1, fun l hl => (smalld_symm l beta).congr (fun a b ha hb => d3 l a b hl ha hb)
    (fun a b ha hb => m3 l a b hl ha hb) (fun a b ha hb => p3 l a b hl ha hb) fun a b ha hb => n3 l a b hl ha hb⟩

theorem Dl_smalld (l : ℕ) (beta : ℝ) (a b : ℤ) (ha : a.natAbs ≤ l) (hb : b.natAbs ≤ l) :
    Dl l 0 beta 0 a b = (smalld l beta a b : ℝ) := by
  rw [Dl, Dlmn_eq l b a hb ha, bigD]; simp

/-- C104: so have the matrices of the explicit formula `Dl(l, 0, beta, 0)`, which are real. -/
theorem C104_Dl_symmetries (l : ℕ) (beta : ℝ) :
    (∀ a b : ℤ, a.natAbs ≤ l → b.natAbs ≤ l → (Dl l 0 beta 0 a b).im = 0) ∧
    DSymm l (fun a b => (Dl l 0 beta 0 a b).re) (fun a b => (Dl l 0 (Real.pi - beta) 0 a b).re)
      (fun a b => (Dl l 0 (Real.pi + beta) 0 a b).re) (fun a b => (Dl l 0 (-beta) 0 a b).re) := by
  refine ⟨fun a b ha hb => by rw [Dl_smalld l beta a b ha hb, Complex.ofReal_im], (smalld_symm l beta).congr ?_ ?_ ?_ ?_⟩ <;>
  · intro a b ha hb
    rw [Dl_smalld l _ a b ha hb, Complex.ofReal_re]

/-- C104: the rotation by `pi`. -/
theorem C104_pi (L : ℕ) (hL : 1 ≤ L) :
    ∃ d, dlmn L Real.pi = some d ∧ ∀ (l : ℕ) (a b : ℤ), l ≤ L → a.natAbs ≤ l → b.natAbs ≤ l →
      d.getD l 0 a b = if a = -b then (-1) ^ (l - b : ℤ).toNat else 0 := by
  obtain ⟨d, d1, -, d3⟩ := dlmn_some L hL Real.pi
  refine ⟨d, d1, fun l a b hl ha hb => ?_⟩
  rw [d3 l a b hl ha hb, smalld, Real.cos_pi_div_two, Real.sin_pi_div_two, dcs_pi l a b ha hb]

/-- C104: complex conjugation of the full matrices. -/
theorem C104_conj (l : ℕ) (alpha beta gamma : ℝ) (a b : ℤ) (ha : a.natAbs ≤ l) (hb : b.natAbs ≤ l) :
    (starRingEnd ℂ) (Dl l alpha beta gamma a b) = (-1) ^ a.natAbs * (-1) ^ b.natAbs * Dl l alpha beta gamma (-a) (-b) := by
  rw [Dl, Dl, Dlmn_eq l b a hb ha, Dlmn_eq l (-b) (-a) (by omega) (by omega), bigD_neg_idx l alpha beta gamma a b ha hb, ← mul_assoc]
  have : ((-1 : ℂ) ^ a.natAbs * (-1) ^ b.natAbs) * ((-1) ^ a.natAbs * (-1) ^ b.natAbs) = 1 := by
    rw [mul_mul_mul_comm, ← mul_pow, ← mul_pow]; norm_num
  rw [this, one_mul]

/-! ## Degrees one and two -/

theorem smalld_one (t : ℝ) (i j : Fin 3) : smalld 1 t ((i : ℤ) - 1) ((j : ℤ) - 1) = dOne t i j := by
  have hc : Real.cos t = Real.cos (t / 2) ^ 2 - Real.sin (t / 2) ^ 2 := by rw [← Real.cos_two_mul']; congr 1; ring
  have hs : Real.sin t = 2 * Real.sin (t / 2) * Real.cos (t / 2) := by rw [← Real.sin_two_mul]; congr 1; ring
  have h1 := Real.cos_sq_add_sin_sq (t / 2)
  have w1 : wt 1 1 = Real.sqrt 2 := by norm_num [wt, fct, show Int.toNat 2 = 2 from rfl]
  have w2 : wt 1 (-1) = Real.sqrt 2 := by rw [wt_neg, w1]
  have w0 : wt 1 0 = 1 := by norm_num [wt, fct]
  have q : Real.sqrt 2 ^ 2 = 2 := Real.sq_sqrt (by norm_num)
  have q0 : Real.sqrt 2 ≠ 0 := by positivity
  have e2 : Real.sin (t / 2) ^ 2 = 1 - Real.cos (t / 2) ^ 2 := by linarith
  rw [smalld, dOne, hc, hs]
  clear hc hs
  generalize Real.cos (t / 2) = c at *
  generalize Real.sin (t / 2) = s at *
  fin_cases i <;> fin_cases j <;>
    simp [dcs, wM_explicit, Finset.sum_range_succ, w0, w1, w2, show Int.toNat 2 = 2 from rfl] <;>
    field_simp <;> ring_nf <;> (try simp only [e2, q]) <;> (try ring_nf)

theorem smalld_two (t : ℝ) (i j : Fin 5) : smalld 2 t ((i : ℤ) - 2) ((j : ℤ) - 2) = dTwo t i j := by
  have hc : Real.cos t = Real.cos (t / 2) ^ 2 - Real.sin (t / 2) ^ 2 := by rw [← Real.cos_two_mul']; congr 1; ring
  have hs : Real.sin t = 2 * Real.sin (t / 2) * Real.cos (t / 2) := by rw [← Real.sin_two_mul]; congr 1; ring
  have h1 := Real.cos_sq_add_sin_sq (t / 2)
  have q : Real.sqrt 6 ^ 2 = 6 := Real.sq_sqrt (by norm_num)
  have q0 : Real.sqrt 6 ≠ 0 := by positivity
  have w1 : wt 2 1 = Real.sqrt 6 := by norm_num [wt, fct, show Int.toNat 3 = 3 from rfl, Nat.factorial]
  have w1' : wt 2 (-1) = Real.sqrt 6 := by rw [wt_neg, w1]
  have w2 : wt 2 2 = 2 * Real.sqrt 6 := by
    have : wt 2 2 = Real.sqrt (2 ^ 2 * 6) := by norm_num [wt, fct, show Int.toNat 4 = 4 from rfl, Nat.factorial]
    rw [this, Real.sqrt_mul (by norm_num), Real.sqrt_sq (by norm_num)]
  have w2' : wt 2 (-2) = 2 * Real.sqrt 6 := by rw [wt_neg, w2]
  have w0 : wt 2 0 = 2 := by
    have : wt 2 0 = Real.sqrt (2 ^ 2) := by norm_num [wt, fct, show Int.toNat 2 = 2 from rfl, Nat.factorial]
    rw [this, Real.sqrt_sq (by norm_num)]
  have r : Real.sqrt (3 / 8) = Real.sqrt 6 / 4 := by
    rw [show (3 / 8 : ℝ) = 6 / 4 ^ 2 by norm_num, Real.sqrt_div (by norm_num), Real.sqrt_sq (by norm_num)]
  have e2 : Real.sin (t / 2) ^ 2 = 1 - Real.cos (t / 2) ^ 2 := by linarith
  have e3 : Real.sin (t / 2) ^ 3 = Real.sin (t / 2) * (1 - Real.cos (t / 2) ^ 2) := by rw [← e2]; ring
  have e4 : Real.sin (t / 2) ^ 4 = (1 - Real.cos (t / 2) ^ 2) ^ 2 := by rw [← e2]; ring
  rw [dTwo, r, hc, hs, smalld]
  clear hc hs
  generalize Real.cos (t / 2) = c at *
  generalize Real.sin (t / 2) = s at *
  fin_cases i <;> fin_cases j <;>
    norm_num [dcs, wM_explicit, Finset.sum_range_succ, Nat.choose, w0, w1, w2, w1', w2', show Int.toNat 2 = 2 from rfl, show Int.toNat 3 = 3 from rfl,
      show Int.toNat 4 = 4 from rfl] <;>
    field_simp <;> ring_nf <;> (try simp only [e2, e3, e4, q]) <;> (try ring_nf)

/-- C104: the matrices of degree one and two of `dlmn` and `Dl`, entry by entry. -/
theorem C104_explicit (L : ℕ) (hL : 2 ≤ L) (t : ℝ) :
    ∃ d, dlmn L t = some d ∧
      (∀ i j : Fin 3, d.getD 1 0 ((i : ℤ) - 1) ((j : ℤ) - 1) = dOne t i j ∧
        Dl 1 0 t 0 ((i : ℤ) - 1) ((j : ℤ) - 1) = (dOne t i j : ℝ)) ∧
      ∀ i j : Fin 5, d.getD 2 0 ((i : ℤ) - 2) ((j : ℤ) - 2) = dTwo t i j ∧
        Dl 2 0 t 0 ((i : ℤ) - 2) ((j : ℤ) - 2) = (dTwo t i j : ℝ) := by
  obtain ⟨d, d1, -, d3⟩ := dlmn_some L (by omega) t
  refine ⟨d, d1, fun i j => ?_, fun i j => ?_⟩
  · have hi : ((i : ℤ) - 1).natAbs ≤ 1 := by omega
    have hj : ((j : ℤ) - 1).natAbs ≤ 1 := by omega
    rw [d3 1 _ _ (by omega) hi hj, Dl_smalld 1 t _ _ hi hj, smalld_one]
    exact ⟨rfl, rfl⟩
  · have hi : ((i : ℤ) - 2).natAbs ≤ 2 := by omega
    have hj : ((j : ℤ) - 2).natAbs ≤ 2 := by omega
    rw [d3 2 _ _ (by omega) hi hj, Dl_smalld 2 t _ _ hi hj, smalld_two]
    exact ⟨rfl, rfl⟩

/-- At `beta = pi / 2` the degree-two entry `d_00` is `-1/2`. -/
example : ∃ d, dlmn 3 (Real.pi / 2) = some d ∧ d.getD 2 0 0 0 = -1 / 2 := by
  obtain ⟨d, h1, -, h2⟩ := C104_explicit 3 (by norm_num) (Real.pi / 2)
  refine ⟨d, h1, ?_⟩
  have := (h2 2 2).1
  have e : dTwo (Real.pi / 2) 2 2 = (3 * Real.cos (Real.pi / 2) ^ 2 - 1) / 2 := rfl
  rw [e, Real.cos_pi_div_two] at this
  refine this.trans ?_
  norm_num

end Newt
