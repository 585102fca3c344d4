import Verif.Proofs.RangeTrans
import Verif.Proofs.RangeRot
import Verif.Props.CGTable

/-!
# C124: the degrees double precision can reach
-/

namespace Newt

open Spec

/-- C124: on valid arguments `cgCoeff` returns a finite number exactly if the product of the six factorials under its second root is
representable, and then the number is the Clebsch-Gordan coefficient (stored as zero if it is too small). -/
theorem C124_cg (j1 j2 m1 m2 J M : ℤ) (h : CGValid j1 j2 m1 m2 J M) :
    ((∃ x, Rng.cgCoeff j1 j2 m1 m2 J M = .fin x) ↔
      fct (J + M) * fct (J - M) * (fct (j1 - m1) * fct (j1 + m1)) * (fct (j2 - m2) * fct (j2 + m2)) < Rng.OVER) ∧
    ((∃ x, Rng.cgCoeff j1 j2 m1 m2 J M = .fin x) → Rng.cgCoeff j1 j2 m1 m2 J M = Rng.rnd (cgCoeff j1 j2 m1 m2 J M)) := by
  obtain ⟨h1, h2⟩ := Rng.cgCoeff_range h
  have hc : ∀ x, Rng.cgCoeff j1 j2 m1 m2 J M = .fin x → Rng.prodP j1 j2 m1 m2 J M < Rng.OVER := by
    intro x hx
    by_contra hn
    exact h2 (not_lt.1 hn) ⟨x, hx⟩
  refine ⟨⟨fun ⟨x, hx⟩ => hc x hx, fun hP => ?_⟩, fun ⟨x, hx⟩ => h1 (hc x hx)⟩
  have := Rng.rnd_isFin ((C103_bounded j1 j2 m1 m2 J M).trans_lt Rng.one_lt_OVER)
  rwa [← h1 hP] at this

/-- C124: up to degree 35 every coefficient is finite, for all integer arguments with `M = m1 + m2`. -/
theorem C124_cg_safe (j1 j2 m1 m2 J M : ℤ) (h1 : j1 ≤ 35) (h2 : j2 ≤ 35) (h3 : J ≤ 35) (hM : M = m1 + m2) :
    Rng.cgCoeff j1 j2 m1 m2 J M = Rng.rnd (cgCoeff j1 j2 m1 m2 J M) := by
  by_cases h : CGValid j1 j2 m1 m2 J M
  · refine (Rng.cgCoeff_range h).1 ((Rng.prodP_le h.1 h.2.1 h.2.2.1).trans_lt (lt_of_le_of_lt ?_ Rng.fct70))
    have p := fun x => (fct_pos x).le
    exact mul_le_mul (mul_le_mul (Rng.fct_mono (by omega)) (Rng.fct_mono (by omega)) (p _) (p _)) (Rng.fct_mono (by omega)) (p _)
      (mul_nonneg (p _) (p _))
  · rw [cgCoeff_invalid h, Rng.rnd_zero, Rng.cgCoeff]
    split_ifs with a b c
    · rfl
    · rfl
    · exfalso; push Not at a b; exact h ⟨a.1, a.2.1, a.2.2, b.2, b.1, hM⟩
    · exfalso; push Not at a b; exact h ⟨a.1, a.2.1, a.2.2, b.2, b.1, hM⟩

/-- The final symmetrisation of entries that are all finite. -/
theorem Rng.fillNeg_some {L : ℕ} (f : ℕ → ℤ → Option ℂ) (g : ℕ → ℤ → ℂ) {l : ℕ} {m : ℤ} (hl : l ≤ L) (hm : m.natAbs ≤ L)
    (h : ∀ m, f l m = some (g l m)) : Rng.fillNeg f l m = some ((Mom.ofFn L g).fillNeg.get l m) := by
  rw [Rng.fillNeg, h, h, Mom.get_fillNeg _ hl hm, Mom.get_ofFn _ hl hm, Mom.get_ofFn _ hl (by omega)]
  rfl

/-- C124: `translate_qlm` is right for arrays of degree at most 49. -/
theorem C124_qlm {LMax : ℕ} (hL : LMax ≤ 49) (q : Mom LMax) (d : V3) (l : ℕ) (m : ℤ) (hl : l ≤ LMax) (hm : m.natAbs ≤ LMax) :
    Rng.translate_qlm q d l m = some ((translate_qlm q d).get l m) := by
  rw [Rng.translate_qlm, translate_qlm]
  by_cases hd : rPOf d = 0
  · simp only [if_pos hd]
  simp only [if_neg hd]
  refine Rng.fillNeg_some _ _ hl hm fun m => ?_
  split_ifs with hM
  · refine Rng.csum_double _ _ _ _ _ fun k hk m' h1 h2 => ?_
    split_ifs with h3
    · rw [Rng.cg_stretched h3 (abs_le.2 ⟨h1, h2⟩) (by omega) (by omega) (by omega)]
      rfl
    · rfl
  · rfl

/-- C124: `translate_Qlmb` is right for arrays of degree at most 49. -/
theorem C124_Qlmb {LMax : ℕ} (hL : LMax ≤ 49) (Q : Mom LMax) (d : V3) (l : ℕ) (m : ℤ) (hl : l ≤ LMax) (hm : m.natAbs ≤ LMax) :
    Rng.translate_Qlmb Q d l m = some ((translate_Qlmb Q d).get l m) := by
  rw [Rng.translate_Qlmb, translate_Qlmb]
  by_cases hd : rPOf d = 0
  · simp only [if_pos hd]
  simp only [if_neg hd]
  refine Rng.fillNeg_some _ _ hl hm fun m => ?_
  split_ifs with hM
  · refine (Rng.csum_double _ _ _ _ (fun i m' => if |m - m'| ≤ ((l + i - l : ℕ) : ℤ) ∧ l + i - l ≤ LMax then
        ((Real.sqrt (4 * Real.pi * Real.exp (gammaln (2 * (l + i : ℕ) + 1) - gammaln (2 * (l + i - l) + 2 : ℕ) - gammaln (2 * l + 1)))
          * rPOf d ^ (l + i - l) * cgCoeff (l + i - l : ℕ) (l + i : ℕ) (m - m') m' l m : ℝ) : ℂ)
          * sphHarm (m - m') (l + i - l) (phiPOf d) (thetaPOf d) * Q.get (l + i) m' else 0) fun k hk m' h1 h2 => ?_).trans ?_
    · split_ifs with h3
      · have hb : fct (2 * l) * fct (2 * (l + k - l : ℕ)) * fct (2 * (l + k : ℕ)) < Rng.OVER := by
          refine lt_of_le_of_lt ?_ Rng.fct98
          have p := fun x => (fct_pos x).le
          exact mul_le_mul (Rng.fct_split (by omega) (by omega) (by omega)) (Rng.fct_mono (by omega)) (p _) (p _)
        rw [Rng.cg_anti h3.1 (abs_le.2 ⟨h1, h2⟩) (by omega) (by omega) (abs_le.2 ⟨by omega, by omega⟩) hb (by omega)]
        norm_num
      · rfl
    · rw [Option.some.injEq]
      refine Finset.sum_bij (fun i _ => l + i) ?_ ?_ ?_ ?_
      · intro i hi; rw [Finset.mem_range] at hi; rw [Finset.mem_Icc]; omega
      · intro i _ j _ h; omega
      · intro k hk; rw [Finset.mem_Icc] at hk; exact ⟨k - l, by rw [Finset.mem_range]; omega, by omega⟩
      · intro i _; rfl
  · rfl

/-- C124: `translate_q2Q` is right for arrays of degree at most 26. -/
theorem C124_q2Q {LMax : ℕ} (hL : LMax ≤ 26) (q : Mom LMax) (d : V3) (hd : d ≠ 0) :
    ∃ Q, translate_q2Q q d = some Q ∧ ∀ l m, l ≤ LMax → m.natAbs ≤ LMax → Rng.translate_q2Q q d l m = some (Q.get l m) := by
  have hd' : rPOf d ≠ 0 := fun h => hd ((rPOf_eq_zero d).1 h)
  refine ⟨_, by rw [translate_q2Q, if_neg hd'], fun l m hl hm => ?_⟩
  rw [Rng.translate_q2Q, Mom.get_ofFn _ hl hm]
  dsimp only
  split_ifs with hM
  · refine Rng.csum_double _ _ _ _ _ fun k hk m' h1 h2 => ?_
    split_ifs with h3
    · have hb : fct (2 * l) * fct (2 * k) * fct (2 * (l + k : ℕ)) < Rng.OVER := by
        refine lt_of_le_of_lt ?_ Rng.fct104
        have p := fun x => (fct_pos x).le
        exact mul_le_mul (mul_le_mul (Rng.fct_mono (by omega)) (Rng.fct_mono (by omega)) (p _) (p _)) (Rng.fct_mono (by omega)) (p _)
          (mul_nonneg (p _) (p _))
      rw [Rng.cg_anti (by rw [abs_neg]; exact abs_le.2 ⟨h1, h2⟩) h3 (by omega) (by omega) hM hb (by omega)]
      rfl
    · rfl
  · rfl

theorem Rng.fillNeg_none (f : ℕ → ℤ → Option ℂ) (l : ℕ) (m : ℤ) (h : f l m = none ∨ f l (-m) = none) : Rng.fillNeg f l m = none := by
  rw [Rng.fillNeg]
  rcases h with h | h
  · rw [h]; rfl
  · rw [h]; cases f l m <;> rfl

/-- C124: every translation of moments of degree 50 or more by `translate_qlm` produces infinities or NaN: the entries of the highest orders of every
degree from 50 on are not finite, whatever the moments. -/
theorem C124_qlm_overflow {LMax : ℕ} (q : Mom LMax) (d : V3) (hd : d ≠ 0) (l : ℕ) (h50 : 50 ≤ l) :
    Rng.translate_qlm q d l l = none ∧ Rng.translate_qlm q d l (-(l : ℤ)) = none := by
  have hd' : rPOf d ≠ 0 := fun h => hd ((rPOf_eq_zero d).1 h)
  rw [Rng.translate_qlm]
  simp only [if_neg hd']
  suffices h : ∀ f : ℕ → ℤ → Option ℂ, f l l = none → Rng.fillNeg f l l = none ∧ Rng.fillNeg f l (-(l : ℤ)) = none by
    refine h _ ?_
    rw [if_pos ⟨by omega, le_rfl⟩]
    refine Rng.csum_mem _ _ _ _ (i := l) (m := l) (by omega) (by omega) le_rfl ?_
    have := Rng.cg_top l h50
    rw [show l - l = 0 by omega, sub_self, if_pos (by norm_num), Nat.cast_zero, this]
    rfl
  intro f hf
  exact ⟨Rng.fillNeg_none _ _ _ (Or.inl hf), Rng.fillNeg_none _ _ _ (Or.inr (by rwa [neg_neg]))⟩

/-- C124: the same for `translate_Qlmb`. -/
theorem C124_Qlmb_overflow {LMax : ℕ} (Q : Mom LMax) (d : V3) (hd : d ≠ 0) (l : ℕ) (h50 : 50 ≤ l) (hl : l ≤ LMax) :
    Rng.translate_Qlmb Q d l l = none ∧ Rng.translate_Qlmb Q d l (-(l : ℤ)) = none := by
  have hd' : rPOf d ≠ 0 := fun h => hd ((rPOf_eq_zero d).1 h)
  rw [Rng.translate_Qlmb]
  simp only [if_neg hd']
  suffices h : ∀ f : ℕ → ℤ → Option ℂ, f l l = none → Rng.fillNeg f l l = none ∧ Rng.fillNeg f l (-(l : ℤ)) = none by
    refine h _ ?_
    rw [if_pos ⟨by omega, le_rfl⟩]
    refine Rng.csum_mem _ _ _ _ (i := 0) (m := l) (by omega) (by omega) (by omega) ?_
    have := Rng.cg_top l h50
    rw [add_zero, show l - l = 0 by omega, sub_self, if_pos ⟨by norm_num, by omega⟩, Nat.cast_zero, this]
    rfl
  intro f hf
  exact ⟨Rng.fillNeg_none _ _ _ (Or.inl hf), Rng.fillNeg_none _ _ _ (Or.inr (by rwa [neg_neg]))⟩

/-- C124: `translate_q2Q` already fails for arrays of degree 27: the entries of the highest orders of every degree from 27 on are not finite. -/
theorem C124_q2Q_overflow {LMax : ℕ} (q : Mom LMax) (d : V3) (l : ℕ) (h27 : 27 ≤ l) (hl : l ≤ LMax) :
    Rng.translate_q2Q q d l l = none ∧ Rng.translate_q2Q q d l (-(l : ℤ)) = none := by
  have key : ∀ s : ℤ, s = 1 ∨ s = -1 → Rng.translate_q2Q q d l (s * l) = none := by
    intro s hs
    have hs' : |s * l| ≤ (l : ℤ) := by rcases hs with rfl | rfl <;> rw [abs_le] <;> omega
    rw [Rng.translate_q2Q]
    dsimp only
    rw [if_pos hs']
    refine Rng.csum_mem _ _ _ _ (i := 27) (m := s * 27) (by omega) (by rcases hs with rfl | rfl <;> norm_num)
      (by rcases hs with rfl | rfl <;> norm_num) ?_
    have := Rng.cg_top_q2Q l h27 s hs
    rw [if_pos (by rcases hs with rfl | rfl <;> rw [abs_le] <;> omega), this]
    rfl
  have h1 := key 1 (Or.inl rfl)
  have h2 := key (-1) (Or.inr rfl)
  rw [one_mul] at h1
  rw [neg_one_mul] at h2
  exact ⟨h1, h2⟩

/-! ## rotations -/

/-- C124: an entry of the explicit Wigner matrix is a finite number exactly if both products of factorials under its roots are representable, and then
it is within 2^-40 of the exact entry. -/
theorem C124_Dlmn (l : ℕ) (m n : ℤ) (hm : |m| ≤ l) (hn : |n| ≤ l) (beta : ℝ) :
    ((∃ x, Rng.Dlmn l m n beta = .fin x) ↔ fct (l - m) * fct (l + m) < Rng.OVER ∧ fct (l - n) * fct (l + n) < Rng.OVER) ∧
    ∀ x, Rng.Dlmn l m n beta = .fin x → ‖(x : ℂ) - Dlmn l m n 0 beta 0‖ ≤ 1 / 2 ^ 40 := by
  have am := abs_le.1 hm
  have an := abs_le.1 hn
  have hfin : Rng.IsFin (Rng.Dlmn l m n beta) → fct (l - m) * fct (l + m) < Rng.OVER ∧ fct (l - n) * fct (l + n) < Rng.OVER := by
    intro h
    rw [Rng.Dlmn] at h
    obtain ⟨h1, h2⟩ := Rng.mul_isFin h
    exact ⟨(Rng.mul_factorial_isFin (by omega) (by omega)).1 (Rng.sqrt_isFin (Rng.mul_isFin h1).2),
      (Rng.mul_factorial_isFin (by omega) (by omega)).1 (Rng.sqrt_isFin h2)⟩
  refine ⟨⟨hfin, fun h => ?_⟩, fun x hx => ?_⟩
  · obtain ⟨y, hy, -⟩ := Rng.dlmn_near hm hn beta h.1 h.2
    exact ⟨y, hy⟩
  · obtain ⟨h1, h2⟩ := hfin ⟨x, hx⟩
    obtain ⟨y, hy, e⟩ := Rng.dlmn_near hm hn beta h1 h2
    rw [hx, Rng.FV.fin.injEq] at hy
    subst hy
    have ex : Dlmn l m n 0 beta 0 = (((∑ k ∈ Finset.Icc (max (m - n) 0) (min (l + m) (l - n)),
        Rng.dTerm l m n beta k / (fct k * fct (l + m - k)) / (fct (l - n - k) * fct (n - m + k))) * (-1) ^ (n - m)
        * Real.sqrt (fct (l - m) * fct (l + m)) * Real.sqrt (fct (l - n) * fct (l + n)) : ℝ) : ℂ) := by
      rw [Dlmn]
      rw [Rng.spFactorial_eq (by omega : 0 ≤ (l : ℤ) - m), Rng.spFactorial_eq (by omega : 0 ≤ (l : ℤ) + m),
        Rng.spFactorial_eq (by omega : 0 ≤ (l : ℤ) - n), Rng.spFactorial_eq (by omega : 0 ≤ (l : ℤ) + n)]
      have es : ∑ k ∈ Finset.Icc (max (m - n) 0) (min (l + m) (l - n)),
          (-1 : ℝ) ^ k * Real.cos (beta / 2) ^ (2 * l + m - n - 2 * k) * Real.sin (beta / 2) ^ (n - m + 2 * k)
            / (spFactorial k * spFactorial (l + m - k)) / (spFactorial (l - n - k) * spFactorial (n - m + k)) =
          ∑ k ∈ Finset.Icc (max (m - n) 0) (min (l + m) (l - n)),
          Rng.dTerm l m n beta k / (fct k * fct (l + m - k)) / (fct (l - n - k) * fct (n - m + k)) := by
        refine Finset.sum_congr rfl fun k hk => ?_
        rw [Finset.mem_Icc] at hk
        rw [Rng.spFactorial_eq (by omega : 0 ≤ k), Rng.spFactorial_eq (by omega : 0 ≤ (l : ℤ) + m - k),
          Rng.spFactorial_eq (by omega : 0 ≤ (l : ℤ) - n - k), Rng.spFactorial_eq (by omega : 0 ≤ n - m + k)]
        rfl
      rw [es]
      simp only [Complex.ofReal_zero, zero_mul, add_zero, mul_zero, Complex.exp_zero, one_mul]
      push_cast
      rfl
    rw [ex, ← Complex.ofReal_sub, Complex.norm_real]
    exact e

/-- C124: all entries of `Dl(l, ...)` are finite exactly up to degree 85. -/
theorem C124_Dl (l : ℕ) (beta : ℝ) :
    (∀ m n : ℤ, |m| ≤ l → |n| ≤ l → ∃ x, Rng.Dlmn l m n beta = .fin x) ↔ l ≤ 85 := by
  constructor
  · intro h
    have hl : |(l : ℤ)| ≤ l := by rw [abs_of_nonneg (by omega)]
    have h1 := ((C124_Dlmn l l l hl hl beta).1.1 (h l l hl hl)).1
    rw [sub_self, fct_zero, one_mul, Rng.fct_lt] at h1
    omega
  · intro h m n hm hn
    refine (C124_Dlmn l m n hm hn beta).1.2 ?_
    have am := abs_le.1 hm
    have an := abs_le.1 hn
    exact ⟨lt_of_le_of_lt (Rng.fct_split (c := 170) (by omega) (by omega) (by omega)) Rng.fct170,
      lt_of_le_of_lt (Rng.fct_split (c := 170) (by omega) (by omega) (by omega)) Rng.fct170⟩

theorem Rng.exp_ratio (k m : ℕ) (hm : m ≤ k) :
    Real.exp (gammaln (k - m + 1) - gammaln (k + m + 1)) = fct (k - m) / fct (k + m) := by
  rw [Real.exp_sub, exp_gammaln _ (k - m) (by omega) (by push_cast; ring), exp_gammaln _ (k + m) (by omega) (by push_cast; ring)]

/-- C124: the starting values of the recursion behind `wignerDl` and `rotate_qlm` are stored correctly up to degree 85. -/
theorem C124_start (k m : ℕ) (hk : k ≤ 85) (hm : m ≤ k) (beta : ℝ) :
    Rng.hInit k beta m = Rng.rnd (hInit k beta 0 m) := by
  have p := fct_pos
  have e := Rng.exp_ratio k m hm
  have h1 : fct (k - m) / fct (k + m) ≤ 1 := (div_le_one (p _)).2 (Rng.fct_mono (by omega))
  have h2 : 1 / fct 170 ≤ fct (k - m) / fct (k + m) := div_le_div₀ (p _).le (Rng.one_le_fct _) (p _) (Rng.fct_mono (by omega))
  have h0 : 0 < fct (k - m) / fct (k + m) := div_pos (p _) (p _)
  have hs : |(-1 : ℝ) ^ m * Real.sqrt (fct (k - m) / fct (k + m))| = Real.sqrt (fct (k - m) / fct (k + m)) := by
    rw [abs_mul, abs_pow, abs_neg, abs_one, one_pow, one_mul, abs_of_nonneg (Real.sqrt_nonneg _)]
  have hu := Rng.inv_fct_under (p 170) Rng.fct170
  have hle : fct (k - m) / fct (k + m) ≤ Real.sqrt (fct (k - m) / fct (k + m)) := by
    refine Real.le_sqrt_of_sq_le ?_
    rw [pow_two]; exact mul_le_of_le_one_left h0.le h1
  rw [Rng.hInit, Rng.exp, e, Rng.rnd_fin (by rw [abs_of_pos h0]; exact h1.trans_lt Rng.one_lt_OVER)
    (by rw [abs_of_pos h0]; exact hu.trans_le h2), Rng.sqrt_fin h0.le, Rng.mul,
    Rng.rnd_fin (by rw [hs]; exact (Real.sqrt_le_one.2 h1).trans_lt Rng.one_lt_OVER)
    (by rw [hs]; exact hu.trans_le (h2.trans hle)), Rng.mul, hInit, setRow, if_pos ⟨rfl, by omega, by omega⟩, rfac]
  have e' : Real.exp (gammaln (((k : ℤ) - (m : ℤ) : ℤ) + 1) - gammaln (((k : ℤ) + (m : ℤ) : ℤ) + 1)) = fct (k - m) / fct (k + m) := by
    rw [← e]; push_cast; rfl
  rw [e', Int.toNat_natCast, zpow_natCast]

theorem lpmv_top (k : ℕ) : lpmv k k 0 = (2 * k).factorial / k.factorial * (-1 / 2) ^ k := by
  rw [lpmv_eq 0 1 zero_le_one (by norm_num) k k le_rfl, ← two_mul]
  congr 1
  have hd : (vPoly 0 1).natDegree ≤ 2 := by
    rw [vPoly]; compute_degree
  have hc : (vPoly 0 1).coeff 2 = -1 / 2 := by
    rw [vPoly]; simp
  have := Polynomial.coeff_pow_of_natDegree_le (m := k) hd
  rw [mul_comm 2 k, this, hc]

/-- C124: from degree 89 on the starting value of order `k` underflows to zero for every angle, silently: at a right angle the exact value is at
least `1/sqrt(2k)`. -/
theorem C124_start_lost (k : ℕ) (hk : 89 ≤ k) :
    (∀ beta, Rng.hInit k beta k = .fin 0) ∧ 1 / Real.sqrt (2 * k) ≤ |hInit k (Real.pi / 2) 0 k| := by
  have p := fct_pos
  have e := Rng.exp_ratio k k le_rfl
  rw [show ((k : ℤ) - k) = 0 by ring, fct_zero] at e
  refine ⟨fun beta => ?_, ?_⟩
  · have hu : 1 / fct (k + k) ≤ Rng.UNDER := by
      have h178 : (2 : ℝ) ^ 1075 ≤ fct 178 := by
        have : ((2 ^ 1075 : ℕ) : ℝ) ≤ ((Nat.factorial 178 : ℕ) : ℝ) := Nat.cast_le.2 (by decide +kernel)
        rwa [Nat.cast_pow, Nat.cast_ofNat] at this
      exact one_div_le_one_div_of_le (by positivity) (h178.trans (Rng.fct_mono (by omega)))
    have h0 : 0 < 1 / fct (k + k) := one_div_pos.2 (p _)
    rw [Rng.hInit, Rng.exp, e, Rng.rnd, if_neg, if_pos (by rwa [abs_of_pos h0]), Rng.sqrt_fin le_rfl, Real.sqrt_zero, Rng.mul, mul_zero,
      Rng.rnd_zero, Rng.mul, zero_mul, Rng.rnd_zero]
    rw [abs_of_pos h0, not_le]
    exact lt_of_le_of_lt ((div_le_one (p _)).2 (Rng.one_le_fct _)) Rng.one_lt_OVER
  · have e' : Real.exp (gammaln (((k : ℤ) - (k : ℤ) : ℤ) + 1) - gammaln (((k : ℤ) + (k : ℤ) : ℤ) + 1)) = 1 / fct (k + k) := by
      rw [← e]; push_cast; rfl
    rw [hInit, setRow, if_pos ⟨rfl, by omega, le_rfl⟩, rfac, e', Real.cos_pi_div_two, Int.toNat_natCast, lpmv_top, zpow_natCast,
      show (k : ℤ) + k = ((2 * k : ℕ) : ℤ) by push_cast; ring, Rng.fct_nat]
    rw [abs_mul, abs_mul, abs_pow, abs_neg, abs_one, one_pow, one_mul, abs_of_nonneg (Real.sqrt_nonneg _), abs_mul, abs_pow,
      abs_of_pos (by positivity : (0 : ℝ) < (2 * k).factorial / k.factorial), show |(-1 / 2 : ℝ)| = 1 / 2 by norm_num [abs_div]]
    have hb := Nat.four_pow_le_two_mul_self_mul_centralBinom k (by omega)
    have hcb : (Nat.centralBinom k : ℝ) = (2 * k).factorial / (k.factorial * k.factorial) := by
      rw [Nat.centralBinom_eq_two_mul_choose, Nat.cast_choose ℝ (by omega), show 2 * k - k = k by omega]
    have hb' : (4 : ℝ) ^ k ≤ 2 * k * Nat.centralBinom k := by exact_mod_cast hb
    have hk0 : (0 : ℝ) < 2 * k := by have : 0 < k := by omega
                                     positivity
    have hf : (0 : ℝ) < (2 * k).factorial := by positivity
    rw [show 1 / Real.sqrt (2 * (k : ℝ)) = Real.sqrt (1 / (2 * k)) by rw [Real.sqrt_div zero_le_one, Real.sqrt_one]]
    refine Real.sqrt_le_iff.2 ⟨by positivity, ?_⟩
    rw [mul_pow, Real.sq_sqrt (by positivity), mul_pow, div_pow, ← pow_mul, mul_comm k 2, pow_mul, show ((1 : ℝ) / 2) ^ 2 = 1 / 4 by norm_num]
    rw [div_pow, one_pow, div_le_iff₀ hk0]
    rw [hcb] at hb'
    have h4 : (0 : ℝ) < 4 ^ k := by positivity
    calc (1 : ℝ) = 4 ^ k / 4 ^ k := (div_self h4.ne').symm
      _ ≤ (2 * k * ((2 * k).factorial / (k.factorial * k.factorial))) / 4 ^ k := div_le_div_of_nonneg_right hb' h4.le
      _ = _ := by field_simp

/-! ## coaxial translations -/

/-- C124: a diagonal entry of the coaxial translation matrices of inner moments (exactly one in exact arithmetic) is one if
`(2n+1) (n-m)! (n+m)!` is representable, and NaN if it is not. -/
theorem C124_RR_entry (n : ℕ) (m : ℤ) (hm : |m| ≤ n) :
    Rng.diagRR n m = if (2 * n + 1) * fct (n - m) * fct (n + m) < Rng.OVER then .fin 1 else .nan := by
  have am := abs_le.1 hm
  exact Rng.diagRR_eq (by omega) (by omega) (by omega)

/-- C124: over all orders of a degree the diagonal is right exactly up to degree 84. -/
theorem C124_RR (n : ℕ) : (∀ m : ℤ, |m| ≤ n → Rng.diagRR n m = .fin 1) ↔ n ≤ 84 := by
  constructor
  · intro h
    have h1 := h n (by rw [abs_of_nonneg (by omega)])
    rw [C124_RR_entry n n (by rw [abs_of_nonneg (by omega)])] at h1
    by_contra hn
    rw [if_neg] at h1
    · cases h1
    rw [show ((n : ℤ) - n) = 0 by ring, fct_zero, mul_one, ← Rng.fct_two_mul, Rng.fct_lt]
    omega
  · intro h m hm
    have am := abs_le.1 hm
    rw [C124_RR_entry n m hm, if_pos]
    refine lt_of_le_of_lt ?_ (Rng.fct_lt.2 (show (2 * n + 1 : ℤ) ≤ 170 by omega))
    rw [Rng.fct_two_mul, mul_assoc]
    refine mul_le_mul_of_nonneg_left ?_ (by positivity)
    exact Rng.fct_split (by omega) (by omega) (by omega)

/-- C124: the same for outer moments, where `(n-m)! (n+m)!` must be representable. -/
theorem C124_SS_entry (n : ℕ) (m : ℤ) (hm : |m| ≤ n) :
    Rng.diagSS n m = if fct (n - m) * fct (n + m) < Rng.OVER then .fin 1 else .nan := by
  have am := abs_le.1 hm
  exact Rng.diagSS_eq (by omega) (by omega) (by omega)

/-- C124: the diagonal for outer moments is right exactly up to degree 85. -/
theorem C124_SS (n : ℕ) : (∀ m : ℤ, |m| ≤ n → Rng.diagSS n m = .fin 1) ↔ n ≤ 85 := by
  constructor
  · intro h
    have h1 := h n (by rw [abs_of_nonneg (by omega)])
    rw [C124_SS_entry n n (by rw [abs_of_nonneg (by omega)])] at h1
    by_contra hn
    rw [if_neg] at h1
    · cases h1
    rw [show ((n : ℤ) - n) = 0 by ring, fct_zero, one_mul, Rng.fct_lt]
    omega
  · intro h m hm
    have am := abs_le.1 hm
    rw [C124_SS_entry n m hm, if_pos]
    exact lt_of_le_of_lt (Rng.fct_split (c := 170) (by omega) (by omega) (by omega)) Rng.fct170

/-! ## cases -/

/-- The hypotheses of the theorems are met on both sides of the limits. -/
example : CGValid 35 35 35 (-35) 35 0 := by refine ⟨?_, ?_, ?_, ?_, ?_, ?_⟩ <;> norm_num

example : ¬ ∃ x, Rng.Dlmn (86 : ℕ) 86 0 1 = .fin x := by
  rw [(C124_Dlmn 86 86 0 (by norm_num) (by norm_num) 1).1]
  rintro ⟨h, -⟩
  rw [show ((86 : ℕ) : ℤ) - 86 = 0 by norm_num, fct_zero, one_mul, Rng.fct_lt] at h
  norm_num at h

example : Rng.diagRR (85 : ℕ) 0 = .fin 1 ∧ Rng.diagRR (85 : ℕ) 85 = .nan := by
  constructor
  · rw [C124_RR_entry 85 0 (by norm_num), if_pos]
    have : (((2 * 85 + 1) * Nat.factorial 85 * Nat.factorial 85 : ℕ) : ℝ) < Rng.OVER := Rng.nat_lt_OVER (by decide +kernel)
    rw [show ((85 : ℕ) : ℤ) - 0 = (85 : ℕ) by norm_num, show ((85 : ℕ) : ℤ) + 0 = (85 : ℕ) by norm_num, Rng.fct_nat]
    push_cast at this ⊢
    norm_num only at this ⊢
    exact this
  · rw [C124_RR_entry 85 85 (by norm_num), if_neg]
    rw [show ((85 : ℕ) : ℤ) - 85 = 0 by norm_num, fct_zero, mul_one, show ((85 : ℕ) : ℤ) + 85 = (85 : ℕ) + (85 : ℕ) by norm_num,
      ← Rng.fct_two_mul, Rng.fct_lt]
    norm_num

end Newt
