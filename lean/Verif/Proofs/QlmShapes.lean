import Verif.Proofs.QlmClosed
import Verif.Proofs.PlanarNgon

/-! # Each constructor's cells are the uniform moments of its solid -/

namespace Newt

open MeasureTheory Finset Spec Qlm

theorem two_zpow_sub_one (l : ℕ) : (2 : ℝ) ^ ((l : ℤ) - 1) = 2 ^ l / 2 := by
  rw [zpow_sub_one₀ (by norm_num), zpow_natCast]; ring

theorem gam3_ne (l m k : ℕ) : gam3 l m k ≠ 0 := (Real.exp_pos _).ne'

theorem sinc_zero : sinc 0 = 1 := by simp [sinc]

theorem phase_zero (phic : ℝ) : phase 0 phic = 1 := by simp [phase]

theorem annulus_cell (mass H Ri Ro phic phih : ℝ) (hH : 0 < H) (hRi : 0 ≤ Ri) (hR : Ri < Ro)
    (h0 : 0 < phih) (hpi : phih ≤ Real.pi) (l m : ℕ) (hm : m ≤ l) :
    annulusCell mass H Ri Ro phic phih l m / ((Ro ^ 2 - Ri ^ 2 : ℝ) : ℂ)
      = uniformMoment mass (prism H (sector Ri Ro phic phih)) l m := by
  rw [uniform_prism mass H hH _ (sector_compact _ _ _ _) l m hm, annulusCell]
  split_ifs with hp
  · rw [sum_mul, sum_mul, sum_div]
    refine sum_congr rfl fun k _ => ?_
    rw [pm_sector Ri Ro phic phih hRi hR.le h0.le hpi, pm_sector Ri Ro phic phih hRi hR.le h0.le hpi,
      two_zpow_sub_one, phase_zero, Nat.cast_zero, zero_mul, sinc_zero]
    have h1 : (Ro ^ 2 - Ri ^ 2 : ℝ) ≠ 0 := by nlinarith
    have h1c : ((Ro : ℂ) ^ 2 - (Ri : ℂ) ^ 2) ≠ 0 := by exact_mod_cast h1
    have h2 : ((gam3 l m k : ℝ) : ℂ) ≠ 0 := by exact_mod_cast gam3_ne l m k
    have h3 : (phih : ℂ) ≠ 0 := by exact_mod_cast h0.ne'
    have h4 : ((m : ℂ) + 2 * k + 2) ≠ 0 := by exact_mod_cast (by omega : m + 2 * k + 2 ≠ 0)
    have h5 : (2 * (k : ℂ) + m + 2) ≠ 0 := by exact_mod_cast (by omega : 2 * k + m + 2 ≠ 0)
    have e : 2 * (k : ℂ) + m + 2 = (m : ℂ) + 2 * k + 2 := by ring
    rw [show 2 * k + m + 2 = m + 2 * k + 2 by ring]
    push_cast
    simp only [mul_zero, add_zero, zero_add, e]
    field_simp
  · simp

theorem spComb_nat (n k : ℕ) : spComb n k = n.choose k := by
  rw [spComb]
  split_ifs with h
  · simp
  · rw [Nat.choose_eq_zero_of_lt (by omega)]; simp

theorem cone_cell (mass P R phic phih : ℝ) (hP : 0 < P) (hR : 0 < R)
    (h0 : 0 < phih) (hpi : phih ≤ Real.pi) (l m : ℕ) (hm : m ≤ l) :
    coneCell mass P R phic phih l m
      = uniformMoment mass (coneOver P (sector 0 R phic phih)) l m := by
  rw [uniform_cone mass P hP _ (sector_compact _ _ _ _) l m hm, coneCell]
  rw [sum_mul, sum_mul]
  refine sum_congr rfl fun k _ => ?_
  have hfs : (m + 2 * k + 2).factorial = (m + 2 * k + 2) * (m + 2 * k + 1).factorial :=
    Nat.factorial_succ _
  rw [pm_sector 0 R phic phih le_rfl hR.le h0.le hpi, pm_sector 0 R phic phih le_rfl hR.le h0.le hpi,
    phase_zero, Nat.cast_zero, zero_mul, sinc_zero, Real.exp_sub, Real.exp_add,
    exp_gammaln_nat ((k : ℝ) + 1) k rfl, exp_gammaln_nat ((m : ℝ) + k + 1) (m + k) (by push_cast; ring),
    exp_gammaln_nat (2 * (k : ℝ) + m + 2) (m + 2 * k + 1) (by push_cast; ring),
    show (2 * (k : ℤ) + (m : ℤ) - 1) = ((m + 2 * k : ℕ) : ℤ) - 1 by push_cast; ring, two_zpow_sub_one,
    hfs]
  have hRc : (R : ℂ) ≠ 0 := by exact_mod_cast hR.ne'
  have h3 : (phih : ℂ) ≠ 0 := by exact_mod_cast h0.ne'
  have h4 : ((m : ℂ) + 2 * k + 2) ≠ 0 := by exact_mod_cast (by omega : m + 2 * k + 2 ≠ 0)
  have hf1 : ((k.factorial : ℕ) : ℂ) ≠ 0 := by exact_mod_cast k.factorial_ne_zero
  have hf2 : (((m + k).factorial : ℕ) : ℂ) ≠ 0 := by exact_mod_cast (m + k).factorial_ne_zero
  rw [show 2 * k + m = m + 2 * k by ring, pow_add R (m + 2 * k) 2]
  simp only [zero_pow (Nat.succ_ne_zero _), zero_pow two_ne_zero, sub_zero, mul_zero, add_zero, zero_add]
  push_cast
  field_simp

/-- The side integral of a symmetric triangle in terms of the code's `psum`. -/
theorem isoPsum_eq (a d : ℝ) (hd : d ≠ 0) (m k : ℕ) :
    tint d (-(a / 2)) (a / 2) m k = ((d ^ (2 * k + m) * isoPsum (a / (2 * d)) m k * a : ℝ) : ℂ) := by
  rw [tint_sym]
  congr 1
  rw [isoPsum, mul_sum, sum_mul]
  refine sum_congr rfl fun p hp => ?_
  rw [mul_sum, mul_sum, sum_mul]
  refine sum_congr rfl fun j hj => ?_
  simp only [mem_range] at hp hj
  rw [zint_even a _ (by omega), spComb_nat, spComb_nat]
  obtain ⟨e, he⟩ : ∃ e, m + 2 * k = (2 * j + 2 * p) + e := ⟨m + 2 * k - (2 * j + 2 * p), by omega⟩
  rw [show 2 * k + m = m + 2 * k by ring, he, Nat.add_sub_cancel_left, pow_add d, div_pow, div_pow, mul_pow 2 d,
    pow_succ a, pow_succ (2 : ℝ) (2 * j + 2 * p)]
  have h1 : ((2 * j + 2 * p : ℕ) : ℝ) + 1 ≠ 0 := by positivity
  have h2 : (2 * (j : ℝ) + 2 * p + 1) ≠ 0 := by positivity
  push_cast
  push_cast at h1
  field_simp

theorem iso_cell (mass H a d phic : ℝ) (hH : 0 < H) (ha : 0 < a) (hd : d ≠ 0) (l m : ℕ) (hm : m ≤ l) :
    isoCell mass H d (a / (2 * d)) phic l m
      = uniformMoment mass (prism H (rotated phic (triangle (d, -(a / 2)) (d, a / 2)))) l m := by
  obtain ⟨c, hc, ht⟩ := pm_triangle d (-(a / 2)) (a / 2) hd
  rw [uniform_prism mass H hH _ (rotated_compact _ _ (triangle_compact _ _)) l m hm, isoCell]
  split_ifs with hp
  · rw [sum_mul, sum_mul]
    refine sum_congr rfl fun k _ => ?_
    rw [pm_rotated, pm_rotated, ht, ht, tint_zero, isoPsum_eq a d hd, two_zpow_sub_one, phase]
    have hcc : (c : ℂ) ≠ 0 := by exact_mod_cast hc
    have hac : (a : ℂ) ≠ 0 := by exact_mod_cast ha.ne'
    have hdc : (d : ℂ) ≠ 0 := by exact_mod_cast hd
    have h2 : ((gam3 l m k : ℝ) : ℂ) ≠ 0 := by exact_mod_cast gam3_ne l m k
    have h4 : ((m : ℂ) + 2 * k + 2) ≠ 0 := by exact_mod_cast (by omega : m + 2 * k + 2 ≠ 0)
    have e : 2 * (k : ℂ) + m + 2 = (m : ℂ) + 2 * k + 2 := by ring
    rw [show a / 2 - -(a / 2) = a by ring]
    push_cast
    simp only [mul_zero, zero_mul, add_zero, zero_add, e, Complex.exp_zero, one_mul]
    field_simp
  · simp

theorem triPsum_eq (d y1 y2 : ℝ) (hd : d ≠ 0) (m k : ℕ) :
    tint d y1 y2 m k = ((d ^ (2 * k + m) : ℝ) : ℂ) * triPsum d y1 y2 m k := by
  rw [tint_expand, triPsum, mul_sum]
  refine sum_congr rfl fun p hp => ?_
  rw [mul_sum, mul_sum]
  refine sum_congr rfl fun j hj => ?_
  simp only [mem_range] at hp hj
  rw [spComb_nat, spComb_nat, zpow_neg, zpow_natCast]
  obtain ⟨e, he⟩ : ∃ e, m + 2 * k = (p + j) + e := ⟨m + 2 * k - (p + j), by omega⟩
  rw [show 2 * k + m = m + 2 * k by ring, he, Nat.add_sub_cancel_left, pow_add d]
  have h1 : ((p : ℂ) + j + 1) ≠ 0 := by exact_mod_cast (by omega : p + j + 1 ≠ 0)
  have hdc : (d : ℂ) ≠ 0 := by exact_mod_cast hd
  push_cast
  field_simp

theorem tri_cell (mass H d y1 y2 : ℝ) (hH : 0 < H) (hd : d ≠ 0) (hy : y1 ≠ y2) (l m : ℕ) (hm : m ≤ l) :
    triCell mass H d y1 y2 l m
      = uniformMoment mass (prism H (triangle (d, y1) (d, y2))) l m := by
  obtain ⟨c, hc, ht⟩ := pm_triangle d y1 y2 hd
  rw [uniform_prism mass H hH _ (triangle_compact _ _) l m hm, triCell]
  split_ifs with hp
  · rw [sum_mul, sum_mul]
    refine sum_congr rfl fun k _ => ?_
    rw [ht, ht, tint_zero, triPsum_eq d y1 y2 hd, two_zpow_sub_one]
    have hcc : (c : ℂ) ≠ 0 := by exact_mod_cast hc
    have hyc : ((y2 : ℂ) - y1) ≠ 0 := by
      rw [sub_ne_zero]; exact_mod_cast hy.symm
    have hdc : (d : ℂ) ≠ 0 := by exact_mod_cast hd
    have h2 : ((gam3 l m k : ℝ) : ℂ) ≠ 0 := by exact_mod_cast gam3_ne l m k
    have h4 : ((m : ℂ) + 2 * k + 2) ≠ 0 := by exact_mod_cast (by omega : m + 2 * k + 2 ≠ 0)
    have e : 2 * (k : ℂ) + m + 2 = (m : ℂ) + 2 * k + 2 := by ring
    push_cast
    simp only [mul_zero, add_zero, zero_add, e]
    field_simp
  · simp

theorem ngonPsum_eq (N : ℕ) (hN : 3 ≤ N) (a : ℝ) (m k : ℕ) :
    apo N a ^ (2 * k + m) * isoPsum (a / (2 * apo N a)) m k
      = (a / 2) ^ (2 * k + m) * ngonPsum (Real.tan (Real.pi / N)) m k := by
  have ht := (tanN_pos hN).ne'
  rw [isoPsum, ngonPsum, mul_sum, mul_sum]
  refine sum_congr rfl fun p hp => ?_
  rw [mul_sum, mul_sum, mul_sum, mul_sum]
  refine sum_congr rfl fun j hj => ?_
  simp only [mem_range] at hp hj
  obtain ⟨e, he⟩ : ∃ e, 2 * k + m = (2 * j + 2 * p) + e := ⟨2 * k + m - (2 * j + 2 * p), by omega⟩
  have hz : Real.tan (Real.pi / N) ^ (((2 * j + 2 * p : ℕ) : ℤ) - 2 * k - m)
      = (Real.tan (Real.pi / N) ^ e)⁻¹ := by
    rw [show ((2 * j + 2 * p : ℕ) : ℤ) - 2 * k - m = -(e : ℤ) by
      have : (2 * (k : ℤ) + m) = (2 * j + 2 * p : ℕ) + e := by exact_mod_cast he
      omega, zpow_neg, zpow_natCast]
  rw [hz, he]
  by_cases ha : a = 0
  · subst ha
    simp only [apo, zero_div]
    by_cases h0 : 2 * j + 2 * p + e = 0
    · have e1 : j = 0 := by omega
      have e2 : p = 0 := by omega
      have e3 : e = 0 := by omega
      subst e1 e2 e3; simp
    · rw [zero_pow h0]; simp
  · have hap : a / (2 * apo N a) = Real.tan (Real.pi / N) := by
      rw [apo]; field_simp
    rw [hap, apo, div_pow, div_pow, mul_pow, pow_add (Real.tan (Real.pi / N)) (2 * j + 2 * p) e]
    push_cast
    have h2 : (2 * (j : ℝ) + 2 * p + 1) ≠ 0 := by positivity
    field_simp

theorem ngon_cell (mass H a phic : ℝ) (N : ℕ) (hN : 3 ≤ N) (hH : 0 < H) (ha : 0 < a) (l m : ℕ) (hm : m ≤ l) :
    ngonCell mass H a phic N l m
      = uniformMoment mass (prism H (regularPolygon N a phic)) l m := by
  have hd := apo_pos hN ha
  rw [uniform_prism mass H hH _ (polygon_rotated a phic ▸ rotated_compact _ _ (polygon_compact hN ha)) l m hm,
    ngonCell]
  by_cases hp : (l - m) % 2 = 0
  · by_cases hmN : m % N = 0
    · rw [if_pos ⟨hmN, hp⟩, if_pos hp, sum_mul, sum_mul]
      refine sum_congr rfl fun k _ => ?_
      rw [pm_polygon hN ha, pm_polygon hN ha, if_pos hmN, if_pos (Nat.zero_mod N),
        pm_triangle_pos _ _ _ hd (by linarith), pm_triangle_pos _ _ _ hd (by linarith), tint_zero,
        isoPsum_eq a _ hd.ne', ngonPsum_eq N hN, phase,
        show ((l : ℤ) + 2 * k + m - 1) = ((l + (2 * k + m) : ℕ) : ℤ) - 1 by push_cast; ring,
        two_zpow_sub_one]
      have hac : (a : ℂ) ≠ 0 := by exact_mod_cast ha.ne'
      have hdc : ((apo N a : ℝ) : ℂ) ≠ 0 := by exact_mod_cast hd.ne'
      have hNc : (N : ℂ) ≠ 0 := by exact_mod_cast (by omega : N ≠ 0)
      have h2 : ((gam3 l m k : ℝ) : ℂ) ≠ 0 := by exact_mod_cast gam3_ne l m k
      have h4 : ((m : ℂ) + 2 * k + 2) ≠ 0 := by exact_mod_cast (by omega : m + 2 * k + 2 ≠ 0)
      have e : 2 * (k : ℂ) + m + 2 = (m : ℂ) + 2 * k + 2 := by ring
      rw [show a / 2 - -(a / 2) = a by ring, pow_add (2 : ℝ) l, div_pow]
      push_cast
      simp only [mul_zero, zero_mul, add_zero, zero_add, e, Complex.exp_zero, one_mul]
      field_simp
    · rw [if_neg (by tauto), if_pos hp]
      symm
      apply mul_eq_zero_of_left
      refine sum_eq_zero fun k _ => ?_
      rw [pm_polygon hN ha, if_neg hmN]; simp
  · rw [if_neg (by tauto), if_neg hp]

end Newt
