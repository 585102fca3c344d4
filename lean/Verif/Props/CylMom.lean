import Verif.Model.CylMom
import Verif.Props.QlmACH
import Verif.Proofs.QlmCyl
import Verif.Proofs.AchCone
import Verif.Proofs.AchPlateBase

/-!
# C83: `qlm.cyl_mom`
-/

namespace Newt.Qlm

open Newt.Spec Polynomial

/-- `cyl_mom` never uses the density. -/
theorem C83_no_density (L M : ℕ) (d1 d2 H R : ℝ) : cylMom L M d1 H R = cylMom L M d2 H R := rfl

/-- `cyl_mom` raises for every order `M >= L`, the monopole included. -/
theorem C83_refused (L M : ℕ) (dens H R : ℝ) (h : L ≤ M) : cylMom L M dens H R = none := by
  rw [cylMom, if_pos h]

theorem lpmv_1_4 (x : ℝ) : lpmv 1 4 x = -(Real.sqrt (1 - x ^ 2)) * (5 / 2 * (7 * x ^ 3 - 3 * x)) := by
  have e : ((X ^ 2 - 1) ^ 4 : ℝ[X]) = X ^ 8 - C 4 * X ^ 6 + C 6 * X ^ 4 - C 4 * X ^ 2 + 1 := by
    have : (C 4 : ℝ[X]) = 4 := rfl
    have : (C 6 : ℝ[X]) = 6 := rfl
    simp only [*]
    ring
  have h : (derivative^[1] (legendreP 4)).eval x = 5 / 2 * (7 * x ^ 3 - 3 * x) := by
    rw [legendreP, e]
    simp only [Function.iterate_succ, Function.iterate_zero, Function.comp_apply, id_eq, derivative_mul, derivative_C,
      derivative_sub, derivative_add, derivative_X_pow, derivative_one, map_sub, map_add, derivative_C_mul,
      zero_mul, zero_add, eval_mul, eval_C, eval_sub, eval_add, eval_pow, eval_X, eval_one]
    norm_num [Nat.factorial]
    ring
  rw [lpmv, h]
  ring

theorem cylMom_20 (dens H R : ℝ) (hH : 0 < H) (hR : 0 < R) :
    cylMom 2 0 dens H R = some (Real.sqrt (5 / (4 * Real.pi)) * (-(5 / Real.pi)) * (R ^ 2 * H * (4 * H ^ 2 - 3 * R ^ 2))) := by
  set D := Real.sqrt (R ^ 2 + H ^ 2) with hD
  have hpos : 0 < R ^ 2 + H ^ 2 := by positivity
  have hDp : 0 < D := Real.sqrt_pos.2 hpos
  have hD2 : D ^ 2 = R ^ 2 + H ^ 2 := Real.sq_sqrt hpos.le
  have hs : ∀ s : ℝ, s ^ 2 = H ^ 2 → Real.sqrt (1 - (s / D) ^ 2) = R / D := by
    intro s hs
    rw [show 1 - (s / D) ^ 2 = (R / D) ^ 2 by
      rw [div_pow, div_pow, hs]; field_simp; linarith]
    exact Real.sqrt_sq (by positivity)
  have hm : momval 2 H R 1 = -5 * (R / D) * (7 * (H / D) ^ 3 - 3 * (H / D)) := by
    rw [momval]
    simp only [← hD]
    rw [lpmv_1_4, lpmv_1_4, hs H rfl, hs (-H) (by ring)]
    ring
  have hg : gammaln ((((2 : ℕ) : ℝ)) - ((0 : ℕ) : ℝ) + 1) - gammaln (((2 : ℕ) : ℝ) + ((0 : ℕ) : ℝ) + 1) = 0 := by simp
  have hf : spFactorial (((2 : ℕ) : ℤ) - ((0 : ℕ) : ℤ)) = 2 := by
    simp [spFactorial]
  rw [cylMom, if_neg (by norm_num)]
  simp only [if_true, hg, hf, Real.exp_zero, Real.sqrt_one, hm, ← hD]
  rw [Option.some.injEq]
  have hpi := Real.pi_pos
  have e5 : (2 * ((2 : ℕ) : ℝ) + 1) = 5 := by norm_num
  rw [e5]
  have hH2 : 4 * H ^ 2 - 3 * R ^ 2 = 7 * H ^ 2 - 3 * D ^ 2 := by rw [hD2]; ring
  rw [hH2]
  field_simp

/-- For `L = 2`, `M = 0` the result is `-30/pi^2` times the moment of a cylinder of radius `R`, half-height `H`
and density 1. -/
theorem C83_quadrupole (dens H R : ℝ) (hH : 0 < H) (hR : 0 < R) :
    ∃ q : ℝ, cylMom 2 0 dens H R = some (-(30 / Real.pi ^ 2) * q) ∧
      densityInner 1 (prism (2 * H) (disc R)) 2 0 = (q : ℂ) := by
  refine ⟨Real.sqrt (5 / (4 * Real.pi)) * (Real.pi / 6) * (R ^ 2 * H * (4 * H ^ 2 - 3 * R ^ 2)), ?_, ?_⟩
  · rw [cylMom_20 dens H R hH hR, Option.some.injEq]
    have hpi := Real.pi_pos
    field_simp
    ring
  · have hpi := Real.pi_pos
    have h := Ach.ann_cells 1 (2 * H) 0 R 0 Real.pi (by positivity) le_rfl hR.le hpi.le le_rfl 2 0 (by norm_num)
      (by norm_num)
    rw [disc_sector R hR.le]
    refine h.symm.trans ?_
    have e5 : Real.sqrt (5 / (4 * Real.pi)) = Real.sqrt (5 / Real.pi) / 2 := by
      rw [show 5 / (4 * Real.pi) = (5 / Real.pi) / 2 ^ 2 by field_simp; norm_num, Real.sqrt_div' _ (by norm_num),
        Real.sqrt_sq (by norm_num)]
    simp only [QlmACH.annCell, QlmACH.ann20, e5]
    rw [Complex.ofReal_inj]
    ring

/-! ## Every degree -/

/-- The associated Legendre function as a polynomial in the cosine and the sine. -/
theorem lpmv_sum (c s : ℝ) (hs : 0 ≤ s) (h : c ^ 2 + s ^ 2 = 1) (m l : ℕ) (hm : m ≤ l) :
    lpmv m l c = (l + m).factorial * ∑ k ∈ Finset.range ((l - m) / 2 + 1), rc l m k * (s ^ (m + 2 * k) * c ^ (l - m - 2 * k)) := by
  have h1 := Rsol_expand l m hm ![s, 0, c]
  have h2 : uPoly ![s, 0, c] = (vPoly c s).map Complex.ofRealHom := by
    simp only [uPoly, vPoly, Polynomial.map_add, Polynomial.map_mul, Polynomial.map_pow, map_X, map_C, Matrix.cons_val_zero, Matrix.cons_val_one,
      Matrix.cons_val, Complex.ofRealHom_eq_coe]
    push_cast
    simp
  rw [Rsol, h2, ← Polynomial.map_pow, show ((l : ℤ) + (m : ℤ)) = ((l + m : ℕ) : ℤ) by push_cast; rfl, zc_nat, coeff_map] at h1
  have h3 : (vPoly c s ^ l).coeff (l + m) / l.factorial =
      ∑ k ∈ Finset.range ((l - m) / 2 + 1), rc l m k * (s ^ (m + 2 * k) * c ^ (l - m - 2 * k)) := by
    apply Complex.ofReal_injective
    push_cast
    refine Eq.trans ?_ (h1.trans ?_)
    · simp
    · refine Finset.sum_congr rfl fun k _ => ?_
      simp only [Matrix.cons_val_zero, Matrix.cons_val_one, Matrix.cons_val]
      push_cast
      ring
  rw [lpmv_eq c s hs h m l hm, ← h3]
  ring

/-- The difference of associated Legendre functions at the two rims of the cylinder. -/
theorem momval_eq (L : ℕ) (H R : ℝ) (hR : 0 < R) (j : ℕ) (hj : j ≤ L + 2) :
    Real.sqrt (R ^ 2 + H ^ 2) ^ (L + 2) * momval L H R j = (L + 2 + j).factorial *
      ∑ k ∈ Finset.range ((L + 2 - j) / 2 + 1), rc (L + 2) j k *
        (R ^ (j + 2 * k) * (H ^ (L + 2 - j - 2 * k) - (-H) ^ (L + 2 - j - 2 * k))) := by
  set D := Real.sqrt (R ^ 2 + H ^ 2) with hD
  have hpos : 0 < R ^ 2 + H ^ 2 := by positivity
  have hDp : 0 < D := Real.sqrt_pos.2 hpos
  have hD2 : D ^ 2 = R ^ 2 + H ^ 2 := Real.sq_sqrt hpos.le
  have key : ∀ x : ℝ, x ^ 2 = H ^ 2 → D ^ (L + 2) * lpmv j (L + 2) (x / D) = (L + 2 + j).factorial *
      ∑ k ∈ Finset.range ((L + 2 - j) / 2 + 1), rc (L + 2) j k * (R ^ (j + 2 * k) * x ^ (L + 2 - j - 2 * k)) := by
    intro x hx
    rw [lpmv_sum (x / D) (R / D) (by positivity) (by rw [div_pow, div_pow, hx]; field_simp; linarith) j (L + 2) hj, mul_left_comm, Finset.mul_sum]
    congr 1
    refine Finset.sum_congr rfl fun k hk => ?_
    have hk' : j + 2 * k + (L + 2 - j - 2 * k) = L + 2 := by simp only [Finset.mem_range] at hk; omega
    have e : D ^ (L + 2) = D ^ (j + 2 * k) * D ^ (L + 2 - j - 2 * k) := by rw [← pow_add, hk']
    rw [e, div_pow, div_pow]
    field_simp
  rw [momval]
  simp only [← hD]
  rw [mul_sub, key H rfl, key (-H) (by ring), ← mul_sub, ← Finset.sum_sub_distrib]
  congr 1
  refine Finset.sum_congr rfl fun k _ => ?_
  ring

theorem zint_sub (H : ℝ) (j : ℕ) : zint (2 * H) j = (H ^ (j + 1) - (-H) ^ (j + 1)) / (j + 1) := by
  rw [zint, integral_pow, show 2 * H / 2 = H by ring]

/-- C83: for every degree `L >= 1` the order 0 result is `-(L+3)!/(4 pi^2)` times the moment of a cylinder of radius `R`, half-height `H` and
density 1. -/
theorem C83_zonal (L : ℕ) (hL : 1 ≤ L) (dens H R : ℝ) (hH : 0 < H) (hR : 0 < R) :
    ∃ q : ℝ, cylMom L 0 dens H R = some (-((L + 3).factorial / (4 * Real.pi ^ 2)) * q) ∧
      densityInner 1 (prism (2 * H) (disc R)) L 0 = (q : ℂ) := by
  have hpi := Real.pi_pos
  refine ⟨Nlm L 0 * ∑ k ∈ Finset.range (L / 2 + 1), rc L 0 k * (zint (2 * H) (L - 2 * k) * (Real.pi * R ^ (2 * k + 2) / (k + 1))), ?_, ?_⟩
  · rw [cylMom, if_neg (by omega)]
    simp only [if_true, Option.some.injEq]
    have hg : gammaln ((L : ℝ) - ((0 : ℕ) : ℝ) + 1) - gammaln ((L : ℝ) + ((0 : ℕ) : ℝ) + 1) = 0 := by simp
    have hf : spFactorial ((L : ℤ) - ((0 : ℕ) : ℤ)) = L.factorial := by simp [spFactorial]
    have hN : Nlm L 0 = Real.sqrt ((2 * L + 1) / (4 * Real.pi)) * L.factorial := by
      rw [Nlm, Real.sqrt_mul (by positivity), show ((L : ℤ) + 0).toNat = L by omega, show ((L : ℤ) - 0).toNat = L by omega,
        Real.sqrt_mul_self (by positivity)]
    rw [hg, hf, Real.exp_zero, Real.sqrt_one, mul_one, mul_assoc, momval_eq L H R hR 1 (by omega), hN]
    have hs : R * ∑ k ∈ Finset.range ((L + 2 - 1) / 2 + 1), rc (L + 2) 1 k *
          (R ^ (1 + 2 * k) * (H ^ (L + 2 - 1 - 2 * k) - (-H) ^ (L + 2 - 1 - 2 * k))) =
        -(1 / (2 * Real.pi)) * ∑ k ∈ Finset.range (L / 2 + 1), rc L 0 k * (zint (2 * H) (L - 2 * k) * (Real.pi * R ^ (2 * k + 2) / (k + 1))) := by
      rw [Finset.mul_sum, Finset.mul_sum]
      symm
      refine Finset.sum_subset_zero_on_sdiff (fun k hk => ?_) (fun k hk => ?_) (fun k hk => ?_)
      · simp only [Finset.mem_range] at hk ⊢; omega
      · simp only [Finset.mem_sdiff, Finset.mem_range] at hk
        rw [show L + 2 - 1 - 2 * k = 0 by omega]
        simp
      · simp only [Finset.mem_range] at hk
        obtain ⟨e, he⟩ : ∃ e, L = 2 * k + e := ⟨L - 2 * k, by omega⟩
        rw [zint_sub, rc, rc, show L - 2 * k = e by omega, show L + 2 - 1 - 2 * k = e + 1 by omega,
          show L - 0 - 2 * k = e by omega, show 1 + k = k + 1 by omega, Nat.factorial_succ k, Nat.factorial_succ e]
        have h1 : ((k.factorial : ℝ)) ≠ 0 := by exact_mod_cast k.factorial_ne_zero
        have h2 : ((e.factorial : ℝ)) ≠ 0 := by exact_mod_cast e.factorial_ne_zero
        have h3 : (k : ℝ) + 1 ≠ 0 := by positivity
        have h4 : (e : ℝ) + 1 ≠ 0 := by positivity
        push_cast
        simp only [zero_add]
        rw [pow_succ (-1 : ℝ) k, show 1 + 2 * k = 2 * k + 1 by ring, pow_succ (2 : ℝ), pow_succ R (2 * k), show R ^ (2 * k + 2) = R ^ (2 * k) * R * R by ring]
        field_simp
    have hs' : ∀ a b c : ℝ, a * R * (b * c) = a * b * (R * c) := by intros; ring
    rw [hs', hs, show L + 2 + 1 = L + 3 by ring]
    field_simp
    ring
  · rw [densityInner, Complex.ofReal_one, one_mul, show (0 : ℤ) = ((0 : ℕ) : ℤ) from rfl,
      prism_int (2 * H) (by positivity) (disc R) (Ach.disc_compact' R) L 0 (by omega)]
    push_cast
    rw [Finset.mul_sum]
    refine Finset.sum_congr rfl fun k _ => ?_
    rw [Ach.pm_disc', if_pos rfl]
    simp only [Nat.sub_zero]
    push_cast
    ring

/-- C83: the moments of a cylinder of every order other than 0 vanish, -/
theorem C83_axis (L M : ℕ) (hM : 0 < M) (hML : M ≤ L) (dens H R : ℝ) (hH : 0 < H) :
    densityInner dens (prism (2 * H) (disc R)) L M = 0 := by
  rw [densityInner, prism_int (2 * H) (by positivity) (disc R) (Ach.disc_compact' R) L M hML, Finset.sum_eq_zero, mul_zero]
  intro k _
  rw [Ach.pm_disc', if_neg (by omega), mul_zero, mul_zero]

/-- as does the result for the order `L-1`, -/
theorem C83_next (M : ℕ) (hM : 0 < M) (dens H R : ℝ) (hR : 0 < R) : cylMom (M + 1) M dens H R = some 0 := by
  have h := momval_eq (M + 1) H R hR (M + 3) (by omega)
  rw [show M + 1 + 2 - (M + 3) = 0 by omega] at h
  simp only [Nat.zero_div, zero_add, Finset.range_one, Finset.sum_singleton, mul_zero, Nat.sub_zero, pow_zero, sub_self] at h
  have h0 : momval (M + 1) H R (M + 3) = 0 := by
    have hD : Real.sqrt (R ^ 2 + H ^ 2) ^ (M + 1 + 2) ≠ 0 := pow_ne_zero _ (Real.sqrt_pos.2 (by positivity)).ne'
    exact (mul_eq_zero.1 h).resolve_left hD
  rw [cylMom, if_neg (by omega), if_neg (by omega)]
  simp [show M + 1 - M = 1 by omega, h0]

/-- but not for the order `L-2`: `cyl_mom` returns a nonzero number for a moment that is zero. -/
theorem C83_spurious (M : ℕ) (hM : 0 < M) (dens H R : ℝ) (hH : 0 < H) (hR : 0 < R) :
    ∃ x : ℝ, cylMom (M + 2) M dens H R = some x ∧ x ≠ 0 ∧ densityInner dens (prism (2 * H) (disc R)) (M + 2 : ℕ) M = 0 := by
  refine ⟨_, by rw [cylMom, if_neg (by omega), if_neg (by omega)], ?_, C83_axis _ _ hM (by omega) _ _ _ hH⟩
  have hD : Real.sqrt (R ^ 2 + H ^ 2) ^ (M + 2 + 2) ≠ 0 := pow_ne_zero _ (Real.sqrt_pos.2 (by positivity)).ne'
  have h := momval_eq (M + 2) H R hR (M + 4) (by omega)
  rw [show M + 2 + 2 - (M + 4) = 0 by omega] at h
  simp only [Nat.zero_div, zero_add, Finset.range_one, Finset.sum_singleton, mul_zero, Nat.sub_zero, pow_zero, sub_self] at h
  have h0 : momval (M + 2) H R (M + 4) = 0 := (mul_eq_zero.1 h).resolve_left hD
  have h1 := momval_eq (M + 2) H R hR (M + 3) (by omega)
  rw [show M + 2 + 2 - (M + 3) = 1 by omega] at h1
  simp only [show 1 / 2 + 1 = 1 by norm_num, Finset.range_one, Finset.sum_singleton, mul_zero, Nat.sub_zero, pow_one, add_zero] at h1
  have hrc : rc (M + 2 + 2) (M + 3) 0 ≠ 0 := by
    rw [rc]
    exact div_ne_zero (pow_ne_zero _ (by norm_num)) (by positivity)
  have h2 : momval (M + 2) H R (M + 3) ≠ 0 := by
    intro h3
    rw [h3, mul_zero] at h1
    have : (((M + 2 + 2 + (M + 3)).factorial : ℝ)) * (rc (M + 2 + 2) (M + 3) 0 * (R ^ (M + 3) * (H - -H))) ≠ 0 := by
      refine mul_ne_zero (by positivity) (mul_ne_zero hrc (mul_ne_zero (by positivity) ?_))
      intro h4; linarith
    exact this h1.symm
  rw [show M + 2 - M = 2 by omega, Finset.sum_range_succ, Finset.sum_range_one, h0, mul_zero, add_zero]
  have hpi := Real.pi_pos
  have hM' : (0 : ℝ) < M := by exact_mod_cast hM
  have hf : spFactorial (((M + 2 : ℕ) : ℤ) - (M : ℤ)) ≠ 0 := by
    rw [show ((M + 2 : ℕ) : ℤ) - (M : ℤ) = 2 by push_cast; ring]
    simp [spFactorial]
  have hexp : Real.sqrt (Real.exp (gammaln (((M + 2 : ℕ) : ℝ) - M + 1) - gammaln (((M + 2 : ℕ) : ℝ) + M + 1))) ≠ 0 :=
    (Real.sqrt_pos.2 (Real.exp_pos _)).ne'
  have hroot : Real.sqrt ((2 * ((M + 2 : ℕ) : ℝ) + 1) / (4 * Real.pi)) ≠ 0 := (Real.sqrt_pos.2 (by positivity)).ne'
  refine mul_ne_zero (mul_ne_zero (mul_ne_zero (mul_ne_zero (div_ne_zero (mul_ne_zero (mul_ne_zero hroot hexp) hf) (by positivity)) ?_) hR.ne') hD) h2
  push_cast
  positivity

/-- C83: so the order 0 result is wrong for every positive density and every degree, unless the moment vanishes. -/
theorem C83_zonal_wrong (L : ℕ) (hL : 1 ≤ L) (dens H R : ℝ) (hd : 0 < dens) (hH : 0 < H) (hR : 0 < R)
    (hne : densityInner dens (prism (2 * H) (disc R)) L 0 ≠ 0) (x : ℝ) (hx : cylMom L 0 dens H R = some x) :
    (x : ℂ) ≠ densityInner dens (prism (2 * H) (disc R)) L 0 := by
  obtain ⟨q, h1, h2⟩ := C83_zonal L hL dens H R hH hR
  have h3 : densityInner dens (prism (2 * H) (disc R)) L 0 = ((dens * q : ℝ) : ℂ) := by
    rw [densityInner] at h2 ⊢
    rw [Complex.ofReal_one, one_mul] at h2
    rw [h2]; push_cast; rfl
  rw [h3] at hne ⊢
  rw [h1, Option.some.injEq] at hx
  have hq : q ≠ 0 := by rintro rfl; simp at hne
  intro h
  have h' : x = dens * q := by exact_mod_cast h
  rw [← hx] at h'
  have h4 : -((L + 3).factorial / (4 * Real.pi ^ 2)) = dens := mul_right_cancel₀ hq h'
  have : 0 < ((L + 3).factorial : ℝ) / (4 * Real.pi ^ 2) := by have := Real.pi_pos; positivity
  linarith

/-- So it is wrong for every positive density (unless the moment happens to vanish). -/
theorem C83_wrong (dens H R : ℝ) (hd : 0 < dens) (hH : 0 < H) (hR : 0 < R) (hne : 4 * H ^ 2 ≠ 3 * R ^ 2) (x : ℝ)
    (hx : cylMom 2 0 dens H R = some x) : (x : ℂ) ≠ densityInner dens (prism (2 * H) (disc R)) 2 0 := by
  obtain ⟨q, h1, h2⟩ := C83_quadrupole dens H R hH hR
  have h3 : densityInner dens (prism (2 * H) (disc R)) 2 0 = ((dens * q : ℝ) : ℂ) := by
    rw [densityInner] at h2 ⊢
    rw [Complex.ofReal_one, one_mul] at h2
    rw [h2]; push_cast; rfl
  rw [h3]
  have h20 := cylMom_20 dens H R hH hR
  rw [h1, Option.some.injEq] at hx
  rw [h1, Option.some.injEq] at h20
  have hq : q ≠ 0 := by
    rintro rfl
    rw [mul_zero] at h20
    have : Real.sqrt (5 / (4 * Real.pi)) ≠ 0 := (Real.sqrt_pos.2 (by positivity)).ne'
    have : (5 / Real.pi) ≠ 0 := by positivity
    have : R ^ 2 * H * (4 * H ^ 2 - 3 * R ^ 2) ≠ 0 := mul_ne_zero (by positivity) (sub_ne_zero.2 hne)
    have : Real.sqrt (5 / (4 * Real.pi)) * (-(5 / Real.pi)) * (R ^ 2 * H * (4 * H ^ 2 - 3 * R ^ 2)) ≠ 0 := by
      refine mul_ne_zero (mul_ne_zero ?_ (neg_ne_zero.2 ?_)) ?_ <;> assumption
    exact this h20.symm
  intro h
  have h' : x = dens * q := by exact_mod_cast h
  rw [← hx] at h'
  have : -(30 / Real.pi ^ 2) = dens := mul_right_cancel₀ hq h'
  have : 0 < 30 / Real.pi ^ 2 := by positivity
  linarith

example : cylMom 2 2 1 1 1 = none := C83_refused 2 2 1 1 1 le_rfl

example (x : ℝ) (hx : cylMom 2 0 7 1 1 = some x) : (x : ℂ) ≠ densityInner 7 (prism (2 * 1) (disc 1)) 2 0 :=
  C83_wrong 7 1 1 (by norm_num) (by norm_num) (by norm_num) (by norm_num) x hx

/-- A flat disc has a moment of degree 2, so the hypotheses of `C83_zonal_wrong` are met. -/
example (x : ℝ) (hx : cylMom 2 0 7 1 1 = some x) : (x : ℂ) ≠ densityInner 7 (prism (2 * 1) (disc 1)) (2 : ℕ) 0 := by
  refine C83_zonal_wrong 2 (by norm_num) 7 1 1 (by norm_num) (by norm_num) (by norm_num) ?_ x hx
  obtain ⟨q, h1, h2⟩ := C83_quadrupole 7 1 1 (by norm_num) (by norm_num)
  have h3 := cylMom_20 7 1 1 (by norm_num) (by norm_num)
  rw [h1, Option.some.injEq] at h3
  have hr : Real.sqrt (5 / (4 * Real.pi)) ≠ 0 := (Real.sqrt_pos.2 (by have := Real.pi_pos; positivity)).ne'
  have hp : (5 / Real.pi) ≠ 0 := by have := Real.pi_pos; positivity
  have hq : q ≠ 0 := by
    rintro rfl
    rw [mul_zero] at h3
    exact mul_ne_zero (mul_ne_zero hr (neg_ne_zero.2 hp)) (by norm_num) h3.symm
  rw [densityInner, Complex.ofReal_one, one_mul] at h2
  rw [densityInner]
  exact mul_ne_zero (by norm_num) (by rw [h2]; exact_mod_cast hq)

example : ∃ x : ℝ, cylMom 3 1 1 2 1 = some x ∧ x ≠ 0 ∧ densityInner 1 (prism (2 * 2) (disc 1)) (3 : ℕ) (1 : ℕ) = 0 :=
  C83_spurious 1 (by norm_num) 1 2 1 (by norm_num) (by norm_num)

end Newt.Qlm
