import Verif.Proofs.WignerRot
import Verif.Proofs.CGOrtho
import Mathlib.Analysis.Calculus.Deriv.Pow
import Mathlib.Analysis.Calculus.Deriv.Polynomial
import Mathlib.Analysis.Calculus.MeanValue
import Mathlib.Analysis.SpecialFunctions.Trigonometric.Deriv

/-!
# Derivative of the small d matrix, and coupling of two rotations
-/

namespace Newt

open Spec Polynomial

theorem wM_differentiable (N i j : ℕ) : Differentiable ℝ fun h : ℝ => wM (Real.cos (h / 2)) (Real.sin (h / 2)) N i j := by
  simp only [wM_explicit]
  fun_prop

theorem wM_deriv_zero (N i j : ℕ) (hj : j ≤ N) (hi : i ≤ N) :
    deriv (fun h : ℝ => wM (Real.cos (h / 2)) (Real.sin (h / 2)) N i j) 0 =
      (if i + 1 = j then (j : ℝ) else 0) / 2 - (if i = j + 1 then ((N - j : ℕ) : ℝ) else 0) / 2 := by
  set w : ℕ → ℝ := fun i => deriv (fun h : ℝ => wM (Real.cos (h / 2)) (Real.sin (h / 2)) N i j) 0 with hw
  have hw0 : ∀ i, HasDerivAt (fun h : ℝ => wM (Real.cos (h / 2)) (Real.sin (h / 2)) N i j) (w i) 0 := fun i =>
    (wM_differentiable N i j 0).hasDerivAt
  have heval : ∀ x h : ℝ, ∑ i ∈ Finset.range (N + 1), wM (Real.cos (h / 2)) (Real.sin (h / 2)) N i j * x ^ i =
      (Real.cos (h / 2) * x + Real.sin (h / 2)) ^ j * (Real.cos (h / 2) - Real.sin (h / 2) * x) ^ (N - j) := by
    intro x h
    have := Polynomial.eval_eq_sum_range' (p := wp (Real.cos (h / 2)) (Real.sin (h / 2)) N j) (n := N + 1)
      (Nat.lt_succ_of_le (wp_deg _ _ hj)) x
    rw [show ∑ i ∈ Finset.range (N + 1), wM (Real.cos (h / 2)) (Real.sin (h / 2)) N i j * x ^ i =
      (wp (Real.cos (h / 2)) (Real.sin (h / 2)) N j).eval x from this.symm]
    simp [wp]
  have hsum : ∀ x : ℝ, ∑ i ∈ Finset.range (N + 1), w i * x ^ i = j * x ^ (j - 1) / 2 - (N - j : ℕ) * x ^ (j + 1) / 2 := by
    intro x
    have h1 : HasDerivAt (fun h : ℝ => ∑ i ∈ Finset.range (N + 1), wM (Real.cos (h / 2)) (Real.sin (h / 2)) N i j * x ^ i)
        (∑ i ∈ Finset.range (N + 1), w i * x ^ i) 0 := HasDerivAt.fun_sum fun i _ => (hw0 i).mul_const _
    simp only [heval] at h1
    have hc : HasDerivAt (fun h : ℝ => Real.cos (h / 2)) 0 0 := by
      have := (Real.hasDerivAt_cos (0 / 2)).comp 0 ((hasDerivAt_id (0 : ℝ)).div_const 2)
      simpa [Function.comp_def] using this
    have hs : HasDerivAt (fun h : ℝ => Real.sin (h / 2)) (1 / 2) 0 := by
      have := (Real.hasDerivAt_sin (0 / 2)).comp 0 ((hasDerivAt_id (0 : ℝ)).div_const 2)
      simpa [Function.comp_def] using this
    have h2 := (((hc.mul_const x).add hs).fun_pow j).mul ((hc.sub (hs.mul_const x)).fun_pow (N - j))
    have := h1.unique (h2.congr_deriv rfl)
    rw [this]
    simp
    rcases Nat.eq_zero_or_pos j with rfl | hj0
    · simp; ring
    · obtain ⟨k, rfl⟩ : ∃ k, j = k + 1 := ⟨j - 1, by omega⟩
      simp only [Nat.add_sub_cancel]
      ring
  have hpoly : ∑ i ∈ Finset.range (N + 1), C (w i) * X ^ i = C ((j : ℝ) / 2) * X ^ (j - 1) - C (((N - j : ℕ) : ℝ) / 2) * X ^ (j + 1) := by
    apply Polynomial.funext
    intro x
    have := hsum x
    simp only [eval_finsetSum, eval_mul, eval_C, eval_pow, eval_X, eval_sub] at this ⊢
    rw [this]; ring
  have hco := congrArg (fun p => p.coeff i) hpoly
  simp only [finsetSum_coeff, coeff_C_mul, coeff_X_pow, coeff_sub, mul_ite, mul_one, mul_zero] at hco
  rw [Finset.sum_eq_single i (fun k _ hk => if_neg (fun h => hk h.symm)) (fun h => absurd (Finset.mem_range.2 (by omega)) h), if_pos rfl] at hco
  change w i = _
  rw [hco]
  rcases Nat.eq_zero_or_pos j with rfl | hj0
  · simp
    split_ifs <;> simp
  · congr 1
    · by_cases h : i + 1 = j
      · rw [if_pos h, if_pos (by omega)]
      · rw [if_neg h, if_neg (by omega), zero_div]
    · by_cases h : i = j + 1
      · rw [if_pos h, if_pos h]
      · rw [if_neg h, if_neg h, zero_div]

theorem smalld_deriv_zero (l : ℕ) (a b : ℤ) (ha : a.natAbs ≤ l) (hb : b.natAbs ≤ l) :
    HasDerivAt (fun h => smalld l h a b)
      ((if b = a + 1 then lad l a else 0) / 2 - (if b = a - 1 then lad l (a - 1) else 0) / 2) 0 := by
  have h := (wM_differentiable (2 * l) (l + a).toNat (l + b).toNat 0).hasDerivAt
  rw [wM_deriv_zero _ _ _ (by omega) (by omega)] at h
  refine (h.const_mul (wt l a / wt l b)).congr_deriv ?_
  have wb := wt_ne l b
  rw [mul_sub]
  congr 1
  · by_cases hab : b = a + 1
    · subst hab
      rw [if_pos (by omega), if_pos rfl]
      have h1 := lad_wt l a (by omega) (by omega)
      have e : (((l : ℤ) + (a + 1)).toNat : ℝ) = l + a + 1 := by
        have : ((((l : ℤ) + (a + 1)).toNat : ℤ) : ℝ) = ((l + (a + 1) : ℤ) : ℝ) := by rw [Int.toNat_of_nonneg (by omega)]
        push_cast at this; rw [this]; ring
      rw [e]
      field_simp
      linear_combination -h1
    · rw [if_neg (by omega), if_neg hab]; simp
  · by_cases hab : b = a - 1
    · subst hab
      rw [if_pos (by omega), if_pos rfl]
      have h1 := lad_wt' l (a - 1) (by omega) (by omega)
      have e : ((2 * l - ((l : ℤ) + (a - 1)).toNat : ℕ) : ℝ) = l - a + 1 := by
        have : (((2 * l - ((l : ℤ) + (a - 1)).toNat : ℕ) : ℤ) : ℝ) = ((l - a + 1 : ℤ) : ℝ) := by congr 1; omega
        push_cast at this ⊢; exact_mod_cast this
      rw [e]
      rw [sub_add_cancel] at h1
      push_cast at h1
      field_simp
      linear_combination -h1
    · rw [if_neg (by omega), if_neg hab]; simp

theorem smalld_add (l : ℕ) (s t : ℝ) (a b : ℤ) (hb : b.natAbs ≤ l) :
    smalld l (s + t) a b = ∑ k ∈ Finset.Icc (-(l : ℤ)) l, smalld l s a k * smalld l t k b := by
  simp only [smalld]
  rw [dcs_mul _ _ _ _ l a b hb, add_div, Real.cos_add, Real.sin_add]

theorem smalld_zero (l : ℕ) (a b : ℤ) (ha : a.natAbs ≤ l) (hb : b.natAbs ≤ l) : smalld l 0 a b = if a = b then 1 else 0 := by
  rw [smalld, zero_div, Real.cos_zero, Real.sin_zero, dcs_one l a b ha hb]

/-- The derivative of the small d matrix. -/
theorem smalld_hasDeriv (l : ℕ) (a b : ℤ) (ha : a.natAbs ≤ l) (hb : b.natAbs ≤ l) (t : ℝ) :
    HasDerivAt (fun h => smalld l h a b) ((lad l a * smalld l t (a + 1) b - lad l (a - 1) * smalld l t (a - 1) b) / 2) t := by
  have h1 : ∀ k ∈ Finset.Icc (-(l : ℤ)) l, HasDerivAt (fun h => smalld l (h - t) a k * smalld l t k b)
      (((if k = a + 1 then lad l a else 0) / 2 - (if k = a - 1 then lad l (a - 1) else 0) / 2) * smalld l t k b) t := by
    intro k hk
    rw [Finset.mem_Icc] at hk
    have h := smalld_deriv_zero l a k ha (by omega)
    have h' : HasDerivAt (fun h => smalld l h a k)
      ((if k = a + 1 then lad l a else 0) / 2 - (if k = a - 1 then lad l (a - 1) else 0) / 2) (t - t) := by rw [sub_self]; exact h
    exact ((h'.comp_sub_const t t).mul_const _)
  have h2 := HasDerivAt.fun_sum h1
  have e : (fun h => smalld l h a b) = fun h => ∑ k ∈ Finset.Icc (-(l : ℤ)) l, smalld l (h - t) a k * smalld l t k b := by
    funext h
    rw [← smalld_add l _ _ a b hb, sub_add_cancel]
  rw [e]
  refine h2.congr_deriv ?_
  simp only [sub_mul, Finset.sum_sub_distrib, ite_div, zero_div, ite_mul, zero_mul, Finset.sum_ite_eq']
  rw [sub_div]
  congr 1
  · split_ifs with h
    · ring
    · rw [Finset.mem_Icc] at h
      rw [show a = l by omega, lad_top]; simp
  · split_ifs with h
    · ring
    · rw [Finset.mem_Icc] at h
      rw [show a - 1 = -l - 1 by omega, lad_bot]; simp

theorem lad_eq_raise (l : ℕ) (a : ℤ) : Real.sqrt ((((l : ℤ) - a : ℤ) : ℝ) * (((l : ℤ) + a + 1 : ℤ) : ℝ)) = lad l a := by
  rw [lad]; push_cast; rfl

theorem lad_eq_lower (l : ℕ) (a : ℤ) : Real.sqrt ((((l : ℤ) + a : ℤ) : ℝ) * (((l : ℤ) - a + 1 : ℤ) : ℝ)) = lad l (a - 1) := by
  rw [lad]; congr 1; push_cast; ring

/-- Moving the ladder operators from one factor to the other. -/
theorem lad_sum (l : ℕ) (f g : ℤ → ℝ) :
    ∑ a ∈ Finset.Icc (-(l : ℤ)) l, f a * (lad l a * g (a + 1) - lad l (a - 1) * g (a - 1)) =
      ∑ a ∈ Finset.Icc (-(l : ℤ)) l, (lad l (a - 1) * f (a - 1) - lad l a * f (a + 1)) * g a := by
  have h1 := cg_sum_shift (l : ℤ) (fun a => f (a - 1) * lad l (a - 1) * g a) (by simp [lad_top]) (by simp [lad_bot])
  have h2 := cg_sum_shift (l : ℤ) (fun a => f a * lad l (a - 1) * g (a - 1)) (by simp [lad_top]) (by simp [lad_bot])
  simp only [add_sub_cancel_right] at h1 h2
  simp only [mul_sub, sub_mul, Finset.sum_sub_distrib]
  congr 1
  · rw [← Finset.sum_congr rfl fun a _ => mul_assoc (f a) (lad l a) (g (a + 1)), h1]
    exact Finset.sum_congr rfl fun a _ => by ring
  · rw [← Finset.sum_congr rfl fun a _ => mul_assoc (f a) (lad l (a - 1)) (g (a - 1)), ← h2]
    exact Finset.sum_congr rfl fun a _ => by ring

section couple

variable (j1 j2 J : ℕ) (b1 b2 : ℤ)

/-- The coupled product of two small d matrices. -/
noncomputable def cpF (M : ℤ) (t : ℝ) : ℝ :=
  ∑ a1 ∈ Finset.Icc (-(j1 : ℤ)) j1, ∑ a2 ∈ Finset.Icc (-(j2 : ℤ)) j2,
    cgCoeff j1 j2 a1 a2 J M * (smalld j1 t a1 b1 * smalld j2 t a2 b2)

/-- The small d matrix applied to the coupled vector. -/
noncomputable def cpG (M : ℤ) (t : ℝ) : ℝ :=
  ∑ N ∈ Finset.Icc (-(J : ℤ)) J, smalld J t M N * cgCoeff j1 j2 b1 b2 J N

theorem cpG_deriv (M : ℤ) (hM : M.natAbs ≤ J) (t : ℝ) :
    HasDerivAt (cpG j1 j2 J b1 b2 M)
      ((lad J M * cpG j1 j2 J b1 b2 (M + 1) t - lad J (M - 1) * cpG j1 j2 J b1 b2 (M - 1) t) / 2) t := by
  have h := HasDerivAt.fun_sum (u := Finset.Icc (-(J : ℤ)) J) fun N hN =>
    (smalld_hasDeriv J M N hM (by rw [Finset.mem_Icc] at hN; omega) t).mul_const (cgCoeff j1 j2 b1 b2 J N)
  refine h.congr_deriv ?_
  simp only [cpG, Finset.mul_sum]
  rw [← Finset.sum_sub_distrib, Finset.sum_div]
  exact Finset.sum_congr rfl fun N _ => by ring

theorem cpF_deriv (hb1 : b1.natAbs ≤ j1) (hb2 : b2.natAbs ≤ j2) (M : ℤ) (t : ℝ) :
    HasDerivAt (cpF j1 j2 J b1 b2 M)
      ((lad J M * cpF j1 j2 J b1 b2 (M + 1) t - lad J (M - 1) * cpF j1 j2 J b1 b2 (M - 1) t) / 2) t := by
  have h := HasDerivAt.fun_sum (u := Finset.Icc (-(j1 : ℤ)) j1) fun a1 h1 =>
    HasDerivAt.fun_sum (u := Finset.Icc (-(j2 : ℤ)) j2) fun a2 h2 =>
    ((smalld_hasDeriv j1 a1 b1 (by rw [Finset.mem_Icc] at h1; omega) hb1 t).mul
      (smalld_hasDeriv j2 a2 b2 (by rw [Finset.mem_Icc] at h2; omega) hb2 t)).const_mul (cgCoeff j1 j2 a1 a2 J M)
  refine h.congr_deriv ?_
  have e1 : ∀ a2, ∑ a1 ∈ Finset.Icc (-(j1 : ℤ)) j1, cgCoeff j1 j2 a1 a2 J M *
      (lad j1 a1 * smalld j1 t (a1 + 1) b1 - lad j1 (a1 - 1) * smalld j1 t (a1 - 1) b1) =
      ∑ a1 ∈ Finset.Icc (-(j1 : ℤ)) j1, (lad j1 (a1 - 1) * cgCoeff j1 j2 (a1 - 1) a2 J M - lad j1 a1 * cgCoeff j1 j2 (a1 + 1) a2 J M) *
        smalld j1 t a1 b1 := fun a2 => lad_sum j1 (fun a1 => cgCoeff j1 j2 a1 a2 J M) fun a1 => smalld j1 t a1 b1
  have e2 : ∀ a1, ∑ a2 ∈ Finset.Icc (-(j2 : ℤ)) j2, cgCoeff j1 j2 a1 a2 J M *
      (lad j2 a2 * smalld j2 t (a2 + 1) b2 - lad j2 (a2 - 1) * smalld j2 t (a2 - 1) b2) =
      ∑ a2 ∈ Finset.Icc (-(j2 : ℤ)) j2, (lad j2 (a2 - 1) * cgCoeff j1 j2 a1 (a2 - 1) J M - lad j2 a2 * cgCoeff j1 j2 a1 (a2 + 1) J M) *
        smalld j2 t a2 b2 := fun a1 => lad_sum j2 (fun a2 => cgCoeff j1 j2 a1 a2 J M) fun a2 => smalld j2 t a2 b2
  have s1 : ∑ a1 ∈ Finset.Icc (-(j1 : ℤ)) j1, ∑ a2 ∈ Finset.Icc (-(j2 : ℤ)) j2, cgCoeff j1 j2 a1 a2 J M *
      (lad j1 a1 * smalld j1 t (a1 + 1) b1 - lad j1 (a1 - 1) * smalld j1 t (a1 - 1) b1) * smalld j2 t a2 b2 =
      ∑ a1 ∈ Finset.Icc (-(j1 : ℤ)) j1, ∑ a2 ∈ Finset.Icc (-(j2 : ℤ)) j2,
      (lad j1 (a1 - 1) * cgCoeff j1 j2 (a1 - 1) a2 J M - lad j1 a1 * cgCoeff j1 j2 (a1 + 1) a2 J M) * smalld j1 t a1 b1 * smalld j2 t a2 b2 := by
    rw [Finset.sum_comm, Finset.sum_comm (s := Finset.Icc (-(j1 : ℤ)) j1)]
    refine Finset.sum_congr rfl fun a2 _ => ?_
    rw [← Finset.sum_mul, ← Finset.sum_mul, e1]
  have s2 : ∑ a1 ∈ Finset.Icc (-(j1 : ℤ)) j1, ∑ a2 ∈ Finset.Icc (-(j2 : ℤ)) j2, smalld j1 t a1 b1 * (cgCoeff j1 j2 a1 a2 J M *
      (lad j2 a2 * smalld j2 t (a2 + 1) b2 - lad j2 (a2 - 1) * smalld j2 t (a2 - 1) b2)) =
      ∑ a1 ∈ Finset.Icc (-(j1 : ℤ)) j1, ∑ a2 ∈ Finset.Icc (-(j2 : ℤ)) j2,
      smalld j1 t a1 b1 * ((lad j2 (a2 - 1) * cgCoeff j1 j2 a1 (a2 - 1) J M - lad j2 a2 * cgCoeff j1 j2 a1 (a2 + 1) J M) * smalld j2 t a2 b2) := by
    refine Finset.sum_congr rfl fun a1 _ => ?_
    rw [← Finset.mul_sum, ← Finset.mul_sum, e2]
  trans (∑ a1 ∈ Finset.Icc (-(j1 : ℤ)) j1, ∑ a2 ∈ Finset.Icc (-(j2 : ℤ)) j2, cgCoeff j1 j2 a1 a2 J M *
      (lad j1 a1 * smalld j1 t (a1 + 1) b1 - lad j1 (a1 - 1) * smalld j1 t (a1 - 1) b1) * smalld j2 t a2 b2 +
      ∑ a1 ∈ Finset.Icc (-(j1 : ℤ)) j1, ∑ a2 ∈ Finset.Icc (-(j2 : ℤ)) j2, smalld j1 t a1 b1 * (cgCoeff j1 j2 a1 a2 J M *
      (lad j2 a2 * smalld j2 t (a2 + 1) b2 - lad j2 (a2 - 1) * smalld j2 t (a2 - 1) b2))) / 2
  · simp only [← Finset.sum_add_distrib, Finset.sum_div]
    exact Finset.sum_congr rfl fun a1 _ => Finset.sum_congr rfl fun a2 _ => by ring
  rw [s1, s2]
  congr 1
  simp only [cpF, Finset.mul_sum, ← Finset.sum_add_distrib, ← Finset.sum_sub_distrib]
  refine Finset.sum_congr rfl fun a1 _ => Finset.sum_congr rfl fun a2 _ => ?_
  have r1 := cg_raise j1 j2 a1 a2 J M
  have r2 := cg_lower j1 j2 a1 a2 J M
  simp only [lad_eq_raise, lad_eq_lower] at r1 r2
  linear_combination (-(smalld j1 t a1 b1 * smalld j2 t a2 b2)) * r1 + (smalld j1 t a1 b1 * smalld j2 t a2 b2) * r2

theorem cp_eq (hb1 : b1.natAbs ≤ j1) (hb2 : b2.natAbs ≤ j2) (M : ℤ) (hM : M.natAbs ≤ J) (t : ℝ) :
    cpF j1 j2 J b1 b2 M t = cpG j1 j2 J b1 b2 M t := by
  set E : ℤ → ℝ → ℝ := fun M t => cpF j1 j2 J b1 b2 M t - cpG j1 j2 J b1 b2 M t with hE
  have hd : ∀ M : ℤ, M.natAbs ≤ J → ∀ t, HasDerivAt (E M) ((lad J M * E (M + 1) t - lad J (M - 1) * E (M - 1) t) / 2) t := by
    intro M hM t
    refine ((cpF_deriv j1 j2 J b1 b2 hb1 hb2 M t).sub (cpG_deriv j1 j2 J b1 b2 M hM t)).congr_deriv ?_
    simp only [hE]; ring
  have hS : ∀ t, HasDerivAt (fun t => ∑ M ∈ Finset.Icc (-(J : ℤ)) J, E M t * E M t) 0 t := by
    intro t
    have h := HasDerivAt.fun_sum (u := Finset.Icc (-(J : ℤ)) J) fun M h1 =>
      (hd M (by rw [Finset.mem_Icc] at h1; omega) t).mul (hd M (by rw [Finset.mem_Icc] at h1; omega) t)
    refine h.congr_deriv ?_
    have := lad_sum J (fun M => E M t) (fun M => E M t)
    have e : ∑ a ∈ Finset.Icc (-(J : ℤ)) J, (lad J (a - 1) * E (a - 1) t - lad J a * E (a + 1) t) * E a t =
        -∑ a ∈ Finset.Icc (-(J : ℤ)) J, E a t * (lad J a * E (a + 1) t - lad J (a - 1) * E (a - 1) t) := by
      rw [← Finset.sum_neg_distrib]; exact Finset.sum_congr rfl fun a _ => by ring
    rw [e] at this
    have h0 : ∑ a ∈ Finset.Icc (-(J : ℤ)) J, E a t * (lad J a * E (a + 1) t - lad J (a - 1) * E (a - 1) t) = 0 := by linarith
    rw [← h0]
    exact Finset.sum_congr rfl fun a _ => by ring
  have hconst := is_const_of_deriv_eq_zero (f := fun t => ∑ M ∈ Finset.Icc (-(J : ℤ)) J, E M t * E M t)
    (fun t => (hS t).differentiableAt) (fun t => (hS t).deriv) t 0
  have h0 : ∀ M ∈ Finset.Icc (-(J : ℤ)) J, E M 0 = 0 := by
    intro M hM
    have hM' := Finset.mem_Icc.1 hM
    simp only [hE, cpF, cpG]
    rw [sub_eq_zero]
    have eG : ∑ N ∈ Finset.Icc (-(J : ℤ)) J, smalld J 0 M N * cgCoeff j1 j2 b1 b2 J N =
        ∑ N ∈ Finset.Icc (-(J : ℤ)) J, (if M = N then 1 else 0) * cgCoeff j1 j2 b1 b2 J N :=
      Finset.sum_congr rfl fun N hN => by
        rw [Finset.mem_Icc] at hN
        rw [smalld_zero J M N (by omega) (by omega)]
    rw [eG]
    simp only [ite_mul, one_mul, zero_mul, Finset.sum_ite_eq]
    rw [if_pos hM, Finset.sum_eq_single_of_mem b1 (Finset.mem_Icc.2 ⟨by omega, by omega⟩),
      Finset.sum_eq_single_of_mem b2 (Finset.mem_Icc.2 ⟨by omega, by omega⟩), smalld_zero j1 b1 b1 hb1 hb1, smalld_zero j2 b2 b2 hb2 hb2]
    · simp
    · intro a2 ha2 hne
      rw [Finset.mem_Icc] at ha2
      rw [smalld_zero j2 a2 b2 (by omega) hb2, if_neg hne]; simp
    · intro a1 ha1 hne
      rw [Finset.mem_Icc] at ha1
      refine Finset.sum_eq_zero fun a2 _ => ?_
      rw [smalld_zero j1 a1 b1 (by omega) hb1, if_neg hne]; simp
  rw [Finset.sum_eq_zero (f := fun M => E M 0 * E M 0) (fun M hM => by rw [h0 M hM, zero_mul])] at hconst
  have := (Finset.sum_eq_zero_iff_of_nonneg fun M _ => mul_self_nonneg (E M t)).1 hconst M (Finset.mem_Icc.2 ⟨by omega, by omega⟩)
  exact sub_eq_zero.1 (mul_self_eq_zero.1 this)

end couple

end Newt
