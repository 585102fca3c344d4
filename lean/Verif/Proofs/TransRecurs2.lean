import Verif.Proofs.TransRecurs

/-! # The coaxial matrices in closed form; rotated translations -/

namespace Newt

open Polynomial Spec

theorem getD_lt {α : Type*} (l : List α) (d : α) {n : ℕ} (h : n < l.length) : l.getD n d = l[n] := by
  simp [List.getD_eq_getElem?_getD, h]

theorem uPoly_ez (r : ℝ) : uPoly ![0, 0, r] = C (r : ℂ) * X := by simp [uPoly]

theorem Rsol_ez (p : ℕ) (c : ℤ) (r : ℝ) :
    Rsol p c ![0, 0, r] = if c = 0 then (r : ℂ) ^ p / p.factorial else 0 := by
  rw [Rsol, uPoly_ez, mul_pow, ← C_pow, zc_C_mul]
  split_ifs with h
  · subst h; rw [add_zero, zc_nat]; simp
  · by_cases h2 : (p : ℤ) + c < 0
    · rw [zc_neg _ h2]; simp
    · obtain ⟨n, hn⟩ := Int.eq_ofNat_of_zero_le (not_lt.1 h2)
      rw [hn, zc_nat, coeff_X_pow, if_neg (by omega)]; simp

theorem alphanm_eq (n m : ℕ) (h : m ≤ n) :
    trr.alphanm n m = (-1) ^ n / (Real.sqrt (4 * Real.pi) * Nlm n m) := by
  have hp := Real.pi_pos
  rw [trr.alphanm, Nlm_fct, ← Real.sqrt_mul (by positivity), spFactorial, spFactorial,
    if_neg (by omega), if_neg (by omega), ← fct, ← fct, zpow_natCast, Real.sqrt_div (by norm_num),
    Real.sqrt_one, mul_one_div]
  congr 2
  have := fct_pos ((n : ℤ) + m); have := fct_pos ((n : ℤ) - m)
  push_cast
  field_simp

theorem betanm_eq (n m : ℕ) (h : m ≤ n) :
    trr.betanm n m = Real.sqrt (4 * Real.pi) * Nlm n m / (2 * n + 1) := by
  have hp := Real.pi_pos
  rw [trr.betanm, Nlm_fct, ← Real.sqrt_mul (by positivity), spFactorial, spFactorial,
    if_neg (by omega), if_neg (by omega), ← fct, ← fct]
  have := fct_pos ((n : ℤ) + m); have := fct_pos ((n : ℤ) - m)
  have e : 4 * Real.pi * ((2 * (n : ℝ) + 1) / (4 * Real.pi) * (fct ((n : ℤ) + m) * fct ((n : ℤ) - m))) =
      fct ((n : ℤ) - m) * fct ((n : ℤ) + m) / (2 * ((n : ℤ) : ℝ) + 1) * (2 * n + 1) ^ 2 := by
    push_cast
    field_simp
  rw [e, Real.sqrt_mul (by push_cast; positivity), Real.sqrt_sq (by positivity)]
  field_simp

theorem sign_pow (r : ℝ) (hr : r ≠ 0) (k : ℕ) :
    Real.sign r ^ k * Real.exp (k * Real.log |r|) = r ^ k := by
  rw [Real.exp_nat_mul, Real.exp_log (abs_pos.2 hr), ← mul_pow]
  congr 1
  rcases lt_or_gt_of_ne hr with h | h
  · rw [Real.sign_of_neg h, abs_of_neg h]; ring
  · rw [Real.sign_of_pos h, abs_of_pos h]; ring

theorem cval_eq (r : ℝ) (hr : r ≠ 0) (k : ℕ) :
    (-Real.sign r) ^ k * Real.exp (k * Real.log |r| - gammaln (k + 1)) = (-r) ^ k / k.factorial := by
  rw [Real.exp_sub, exp_gammaln _ k (by omega) (by push_cast; ring), neg_pow, neg_pow r,
    ← sign_pow r hr, fct, Int.toNat_natCast]
  ring

theorem sval_eq (r : ℝ) (hr : r ≠ 0) (k : ℕ) :
    Real.sign r ^ (k + 1) * Real.exp (gammaln (k + 1) - (k + 1) * Real.log |r|) =
      k.factorial / r ^ (k + 1) := by
  have h := sign_pow r hr (k + 1)
  have h2 : Real.sign r ^ (k + 1) * Real.sign r ^ (k + 1) = 1 := by
    rw [← mul_pow]
    rcases lt_or_gt_of_ne hr with h | h
    · rw [Real.sign_of_neg h]; simp
    · rw [Real.sign_of_pos h]; simp
  rw [Real.exp_sub, exp_gammaln _ k (by omega) (by push_cast; ring), fct, Int.toNat_natCast]
  push_cast at h
  rw [eq_div_iff (pow_ne_zero _ hr), ← h]
  have := (Real.exp_pos (((k : ℝ) + 1) * Real.log |r|)).ne'
  field_simp
  linear_combination h2

/-- entries of the regular-to-regular matrices -/
theorem RR_entry (L : ℕ) (r : ℝ) (hr : r ≠ 0) (m i j : ℕ) (hi : m + i ≤ L) (hj : m + j ≤ L) :
    (trr.transl_newt_z_RR L r).getD m 0 i j =
      if j ≤ i then r ^ (i - j) / (i - j).factorial * (Nlm (m + i) m / Nlm (m + j) m) else 0 := by
  rw [trr.transl_newt_z_RR]
  rw [getD_lt _ _ (by simp; omega), List.getElem_map, List.getElem_range, trr.toeplitz]
  have e1 : (m : ℤ) + (i : ℤ) = ((m + i : ℕ) : ℤ) := by push_cast; rfl
  have e2 : (m : ℤ) + (j : ℤ) = ((m + j : ℕ) : ℤ) := by push_cast; rfl
  rw [e1, e2, alphanm_eq _ _ (by omega), alphanm_eq _ _ (by omega)]
  have h1 := (Nlm_pos (m + i) m).ne'
  have h2 := (Nlm_pos (m + j) m).ne'
  have h3 : Real.sqrt (4 * Real.pi) ≠ 0 := by
    have := Real.pi_pos; exact (Real.sqrt_pos.2 (by positivity)).ne'
  split_ifs with h
  · rw [getD_lt _ _ (by simp; omega), List.getElem_take, List.getElem_map,
      List.getElem_range, cval_eq r hr, neg_pow, pow_add (-1 : ℝ) m i, pow_add (-1 : ℝ) m j]
    have h5 : ((-1 : ℝ)) ^ (i - j) * (-1) ^ j = (-1) ^ i := by
      rw [← pow_add, Nat.sub_add_cancel h]
    have h6 : ((-1 : ℝ)) ^ i ≠ 0 := pow_ne_zero _ (by norm_num)
    have h7 : ((-1 : ℝ)) ^ m ≠ 0 := pow_ne_zero _ (by norm_num)
    rw [← h5] at *
    field_simp
  · obtain ⟨t, ht⟩ : ∃ t, j - i = t + 1 := ⟨j - i - 1, by omega⟩
    obtain ⟨s, hs⟩ : ∃ s, L + 1 - m = s + 1 := ⟨L - m, by omega⟩
    rw [ht, hs, List.take_succ_cons, List.getD_cons_succ, List.take_replicate]
    rw [getD_lt _ _ (by simp; omega), List.getElem_replicate, zero_mul]

/-- entries of the singular-to-singular matrices -/
theorem SS_entry (L : ℕ) (r : ℝ) (hr : r ≠ 0) (m i j : ℕ) (hi : m + i ≤ L) (hj : m + j ≤ L) :
    (trr.transl_newt_z_SS L r).getD m 0 i j =
      if i ≤ j then (-r) ^ (j - i) / (j - i).factorial *
        ((2 * (m + i : ℕ) + 1) / Nlm (m + i) m * (Nlm (m + j) m / (2 * (m + j : ℕ) + 1))) else 0 := by
  rw [trr.transl_newt_z_SS]
  rw [getD_lt _ _ (by simp; omega), List.getElem_map, List.getElem_range, trr.toeplitz]
  have e1 : (m : ℤ) + (i : ℤ) = ((m + i : ℕ) : ℤ) := by push_cast; rfl
  have e2 : (m : ℤ) + (j : ℤ) = ((m + j : ℕ) : ℤ) := by push_cast; rfl
  rw [e1, e2, betanm_eq _ _ (by omega), betanm_eq _ _ (by omega)]
  have h1 := (Nlm_pos (m + i) m).ne'
  have h2 := (Nlm_pos (m + j) m).ne'
  have h3 : Real.sqrt (4 * Real.pi) ≠ 0 := by
    have := Real.pi_pos; exact (Real.sqrt_pos.2 (by positivity)).ne'
  have h4 : (2 * ((m + j : ℕ) : ℝ) + 1) ≠ 0 := by positivity
  have h5 : (2 * ((m + i : ℕ) : ℝ) + 1) ≠ 0 := by positivity
  by_cases h : i ≤ j
  · rw [if_pos h]
    have key : (if j ≤ i then (List.take (L + 1 - m) (((List.range (L + 1)).map fun lp : ℕ =>
          (-Real.sign r) ^ lp * Real.exp (lp * Real.log |r| - gammaln (lp + 1))).getD 0 0
            :: List.replicate L 0)).getD (i - j) 0
        else (List.take (L + 1 - m) ((List.range (L + 1)).map fun lp : ℕ =>
          (-Real.sign r) ^ lp * Real.exp (lp * Real.log |r| - gammaln (lp + 1)))).getD (j - i) 0) =
        (-r) ^ (j - i) / (j - i).factorial := by
      split_ifs with h6
      · obtain ⟨s, hs⟩ : ∃ s, L + 1 - m = s + 1 := ⟨L - m, by omega⟩
        rw [show i - j = 0 by omega, show j - i = 0 by omega, hs, List.take_succ_cons,
          List.getD_cons_zero, getD_lt _ _ (by simp), List.getElem_map,
          List.getElem_range, cval_eq r hr]
      · rw [getD_lt _ _ (by simp; omega), List.getElem_take, List.getElem_map,
          List.getElem_range, cval_eq r hr]
    rw [key]
    field_simp
  · rw [if_neg h, if_pos (by omega)]
    obtain ⟨t, ht⟩ : ∃ t, i - j = t + 1 := ⟨i - j - 1, by omega⟩
    obtain ⟨s, hs⟩ : ∃ s, L + 1 - m = s + 1 := ⟨L - m, by omega⟩
    rw [ht, hs, List.take_succ_cons, List.getD_cons_succ, List.take_replicate]
    rw [getD_lt _ _ (by simp; omega), List.getElem_replicate, zero_mul]

/-- entries of the singular-from-regular matrices -/
theorem SR_entry (L : ℕ) (r : ℝ) (hr : r ≠ 0) (m i j : ℕ) (hi : m + i ≤ L) (hj : m + j ≤ L) :
    (trr.transl_newt_z_SR L r).getD m 0 i j =
      (-1) ^ (m + j) * ((2 * m + i + j).factorial / r ^ (2 * m + i + j + 1)) *
        ((2 * (m + i : ℕ) + 1) / (4 * Real.pi * Nlm (m + i) m * Nlm (m + j) m)) := by
  rw [trr.transl_newt_z_SR]
  rw [getD_lt _ _ (by simp; omega), List.getElem_map, List.getElem_range, trr.hankel]
  have e1 : (m : ℤ) + (i : ℤ) = ((m + i : ℕ) : ℤ) := by push_cast; rfl
  have e2 : (m : ℤ) + (j : ℤ) = ((m + j : ℕ) : ℤ) := by push_cast; rfl
  rw [e1, e2, alphanm_eq _ _ (by omega), betanm_eq _ _ (by omega)]
  have h1 := (Nlm_pos (m + i) m).ne'
  have h2 := (Nlm_pos (m + j) m).ne'
  have h3 : Real.sqrt (4 * Real.pi) ≠ 0 := by
    have := Real.pi_pos; exact (Real.sqrt_pos.2 (by positivity)).ne'
  have h3' : 4 * Real.pi = Real.sqrt (4 * Real.pi) * Real.sqrt (4 * Real.pi) :=
    (Real.mul_self_sqrt (by have := Real.pi_pos; positivity)).symm
  have h5 : (2 * ((m + i : ℕ) : ℝ) + 1) ≠ 0 := by positivity
  set sv := (List.range (2 * L + 1)).map fun lp : ℕ =>
    Real.sign r ^ (lp + 1) * Real.exp (gammaln (lp + 1) - (lp + 1) * Real.log |r|) with hsv
  have key : (if i + j < (List.drop (2 * m) (List.take (L + m + 1) sv)).length then
      (List.drop (2 * m) (List.take (L + m + 1) sv)).getD (i + j) 0
      else (List.drop (L + m) sv).getD (i + j - (List.drop (2 * m) (List.take (L + m + 1) sv)).length + 1) 0) =
      (2 * m + i + j).factorial / r ^ (2 * m + i + j + 1) := by
    have hlen : sv.length = 2 * L + 1 := by rw [hsv]; simp
    have hl2 : (List.drop (2 * m) (List.take (L + m + 1) sv)).length = L + 1 - m := by
      rw [List.length_drop, List.length_take, hlen]; omega
    rw [hl2]
    have hget : ∀ k, k < 2 * L + 1 → ∀ hk : k < sv.length, sv[k] = k.factorial / r ^ (k + 1) := by
      intro k _ hk
      simp only [hsv, List.getElem_map, List.getElem_range]
      exact sval_eq r hr k
    split_ifs with h
    · rw [getD_lt _ _ (by rw [hl2]; omega), List.getElem_drop, List.getElem_take,
        hget _ (by omega)]
      rw [show 2 * m + (i + j) = 2 * m + i + j by ring]
    · rw [getD_lt _ _ (by rw [List.length_drop, hlen]; omega), List.getElem_drop,
        hget _ (by omega)]
      rw [show L + m + (i + j - (L + 1 - m) + 1) = 2 * m + i + j by omega]
  rw [key]
  nth_rewrite 3 [h3']
  have := pow_ne_zero (2 * m + i + j + 1) hr
  field_simp

/-! ## The coaxial matrices are the translations along z -/

theorem RR_length (L : ℕ) (r : ℝ) : (trr.transl_newt_z_RR L r).length = L + 1 := by
  simp [trr.transl_newt_z_RR]
theorem SS_length (L : ℕ) (r : ℝ) : (trr.transl_newt_z_SS L r).length = L + 1 := by
  simp [trr.transl_newt_z_SS]
theorem SR_length (L : ℕ) (r : ℝ) : (trr.transl_newt_z_SR L r).length = L + 1 := by
  simp [trr.transl_newt_z_SR]

theorem Nlm_natAbs (l : ℕ) (m : ℤ) : Nlm l m.natAbs = Nlm l m := by
  rcases Int.natAbs_eq m with h | h
  · rw [← h]
  · conv_rhs => rw [h]
    rw [Nlm_neg]

theorem sum_diag (k : ℕ) (m : ℤ) (f : ℤ → ℂ) (hf : ∀ n, n ≠ m → f n = 0) :
    ∑ n ∈ Finset.Icc (-(k : ℤ)) k, f n = if m.natAbs ≤ k then f m else 0 := by
  split_ifs with h
  · exact Finset.sum_eq_single m (fun n _ hn => hf n hn)
      (fun hh => absurd (Finset.mem_Icc.2 ⟨by omega, by omega⟩) hh)
  · apply Finset.sum_eq_zero
    intro n hn
    rw [Finset.mem_Icc] at hn
    exact hf n (by omega)

theorem apply_RR {L : ℕ} (q : Mom L) (r : ℝ) (hr : r ≠ 0) :
    trr.apply_trans_mat q (trr.transl_newt_z_RR L r) false = some (Mom.ofFn L (trInner q ![0, 0, r])) := by
  rw [trr.apply_trans_mat, RR_length, if_neg (by simp)]
  simp only [Bool.false_eq_true, if_false, Option.some.injEq]
  apply Mom.ext_get
  intro l m hl hm
  rw [Mom.get_ofFn _ hl hm, Mom.get_ofFn _ hl hm]
  split_ifs with h
  · rw [trInner]
    have h1 : ∀ k ∈ Finset.range (l + 1), ∑ n ∈ Finset.Icc (-(k : ℤ)) k,
        Rsol (l - k) (m - n) ![0, 0, r] * (q.get k n / (Nlm k n : ℂ)) =
        if m.natAbs ≤ k then (r : ℂ) ^ (l - k) / (l - k).factorial * (q.get k m / (Nlm k m : ℂ)) else 0 := by
      intro k _
      rw [sum_diag k m _ (fun n hn => by rw [Rsol_ez, if_neg (by omega), zero_mul])]
      congr 1
      rw [Rsol_ez, if_pos (by ring)]
    rw [Finset.sum_congr rfl h1, Finset.mul_sum]
    symm
    rw [← Finset.sum_filter_add_sum_filter_not _
      (fun k => m.natAbs ≤ k), Finset.sum_eq_zero (s := Finset.filter (fun k => ¬ m.natAbs ≤ k) _), add_zero]
    · have h2 : ∀ k ∈ Finset.range (L + 1 - m.natAbs), ¬ k ≤ l - m.natAbs →
          (((trr.transl_newt_z_RR L r).getD m.natAbs 0 (l - m.natAbs) k : ℝ) : ℂ) *
            q.get (m.natAbs + k) m = 0 := by
        intro k hk hkl
        rw [Finset.mem_range] at hk
        rw [RR_entry L r hr _ _ _ (by omega) (by omega), if_neg (by omega)]; simp
      refine Finset.sum_of_injOn (fun k => k - m.natAbs) ?_ ?_ ?_ ?_
      · intro a ha b hb hab
        simp only [Finset.coe_filter, Finset.mem_range, Set.mem_setOf_eq] at ha hb hab
        omega
      · intro a ha
        simp only [Finset.coe_filter, Finset.mem_range, Set.mem_setOf_eq, Finset.mem_coe] at ha ⊢
        omega
      · intro k hk hn
        apply h2 k hk
        intro hkl
        apply hn
        refine ⟨m.natAbs + k, ?_, by simp⟩
        simp only [Finset.coe_filter, Finset.mem_range, Set.mem_setOf_eq]
        omega
      · intro k hk
        rw [Finset.mem_filter, Finset.mem_range] at hk
        rw [RR_entry L r hr _ _ _ (by omega) (by omega), if_pos hk.2, if_pos (by omega),
          show m.natAbs + (l - m.natAbs) = l by omega, show m.natAbs + (k - m.natAbs) = k by omega,
          show l - m.natAbs - (k - m.natAbs) = l - k by omega, Nlm_natAbs, Nlm_natAbs]
        push_cast
        ring
    · intro k hk
      rw [Finset.mem_filter] at hk
      rw [if_neg hk.2, mul_zero]
  · rw [trInner_out _ _ _ _ (by omega)]

theorem apply_SS {L : ℕ} (q : Mom L) (r : ℝ) (hr : r ≠ 0) :
    trr.apply_trans_mat q (trr.transl_newt_z_SS L r) false = some (Mom.ofFn L (trOuter q ![0, 0, r])) := by
  rw [trr.apply_trans_mat, SS_length, if_neg (by simp)]
  simp only [Bool.false_eq_true, if_false, Option.some.injEq]
  apply Mom.ext_get
  intro l m hl hm
  rw [Mom.get_ofFn _ hl hm, Mom.get_ofFn _ hl hm, trOuter]
  split_ifs with h
  · have h1 : ∀ k ∈ Finset.Icc l L, ∑ n ∈ Finset.Icc (-(k : ℤ)) k,
        Rsol (k - l) (n - m) (-![0, 0, r]) * ((Nlm k n : ℂ) * q.get k n / (2 * k + 1)) =
        (-r : ℂ) ^ (k - l) / (k - l).factorial * ((Nlm k m : ℂ) * q.get k m / (2 * k + 1)) := by
      intro k hk
      rw [Finset.mem_Icc] at hk
      have e : (-![0, 0, r] : V3) = ![0, 0, -r] := by simp
      rw [e, sum_diag k m _ (fun n hn => by rw [Rsol_ez, if_neg (by omega), zero_mul]),
        if_pos (by omega), Rsol_ez, if_pos (by ring)]
      push_cast; rfl
    rw [Finset.sum_congr rfl h1, Finset.mul_sum]
    symm
    refine Finset.sum_of_injOn (fun k => k - m.natAbs) ?_ ?_ ?_ ?_
    · intro a ha b hb hab
      simp only [Finset.coe_Icc, Set.mem_Icc] at ha hb hab
      omega
    · intro a ha
      simp only [Finset.coe_Icc, Set.mem_Icc, Finset.mem_coe, Finset.mem_range] at ha ⊢
      omega
    · intro k hk hn
      rw [Finset.mem_range] at hk
      have hkl : ¬ l - m.natAbs ≤ k := by
        intro hkl
        apply hn
        refine ⟨m.natAbs + k, ?_, by simp⟩
        simp only [Finset.coe_Icc, Set.mem_Icc]
        omega
      rw [SS_entry L r hr _ _ _ (by omega) (by omega), if_neg hkl]; simp
    · intro k hk
      rw [Finset.mem_Icc] at hk
      rw [SS_entry L r hr _ _ _ (by omega) (by omega), if_pos (by omega),
        show m.natAbs + (l - m.natAbs) = l by omega, show m.natAbs + (k - m.natAbs) = k by omega,
        show (k - m.natAbs) - (l - m.natAbs) = k - l by omega, Nlm_natAbs, Nlm_natAbs]
      push_cast
      ring
  · rfl

/-- `1/(2j+1) N_jc^2 conj(R_jc)/r^(2j+1)`: the kernel of the inner-to-outer translation. -/
noncomputable def fO (j : ℕ) (c : ℤ) (d : V3) : ℂ :=
  (Nlm j c : ℂ) ^ 2 / (2 * j + 1) * ((starRingEnd ℂ) (Rsol j c d) / ((modulus d ^ (2 * j + 1) : ℝ) : ℂ))

/-- Closed form of the inner-to-outer translation. -/
noncomputable def trQ {LMax : ℕ} (q : Mom LMax) (d : V3) (L : ℕ) (M : ℤ) : ℂ :=
  if M.natAbs ≤ L then
    ((2 * L + 1 : ℂ) / (Nlm L M : ℂ)) * ∑ k ∈ Finset.range (LMax + 1), ∑ n ∈ Finset.Icc (-(k : ℤ)) k,
      (-1) ^ k * fO (L + k) (M + n) d * (q.get k n / (Nlm k n : ℂ))
  else 0

theorem modulus_ez (r : ℝ) (hr : 0 < r) : modulus ![0, 0, r] = r := by
  simp [modulus, Real.sqrt_sq hr.le]

theorem Nlm_zero_sq (j : ℕ) : Nlm j 0 ^ 2 = (2 * j + 1) / (4 * Real.pi) * (j.factorial * j.factorial) := by
  rw [Nlm, Real.sq_sqrt (by have := Real.pi_pos; positivity)]; simp

theorem fO_ez (j : ℕ) (c : ℤ) (r : ℝ) (hr : 0 < r) :
    fO j c ![0, 0, r] = if c = 0 then ((j.factorial / (4 * Real.pi * r ^ (j + 1)) : ℝ) : ℂ) else 0 := by
  rw [fO, Rsol_ez, modulus_ez r hr]
  split_ifs with h
  · subst h
    rw [← Complex.ofReal_pow, Nlm_zero_sq]
    rw [map_div₀, map_pow, Complex.conj_ofReal, Complex.conj_natCast]
    have h1 : (j.factorial : ℂ) ≠ 0 := by exact_mod_cast j.factorial_ne_zero
    have h2 : (2 * (j : ℂ) + 1) ≠ 0 := by exact_mod_cast (by omega : 2 * j + 1 ≠ 0)
    have h3 : (r : ℂ) ≠ 0 := by exact_mod_cast hr.ne'
    have h4 : (Real.pi : ℂ) ≠ 0 := by exact_mod_cast Real.pi_ne_zero
    push_cast
    rw [show 2 * j + 1 = j + (j + 1) by ring, pow_add]
    field_simp
  · simp

theorem apply_SR {L : ℕ} (q : Mom L) (r : ℝ) (hr : 0 < r) :
    trr.apply_trans_mat q (trr.transl_newt_z_SR L r) true = some (Mom.ofFn L (trQ q ![0, 0, r])) := by
  rw [trr.apply_trans_mat, SR_length, if_neg (by simp)]
  simp only [if_true, Option.some.injEq]
  apply Mom.ext_get
  intro l m hl hm
  rw [trr.fliplr, Mom.get_ofFn _ hl hm, Mom.get_ofFn _ hl (by omega), Mom.get_ofFn _ hl hm, trQ, Int.natAbs_neg]
  split_ifs with h
  · have h1 : ∀ k ∈ Finset.range (L + 1), ∑ n ∈ Finset.Icc (-(k : ℤ)) k,
        (-1) ^ k * fO (l + k) (m + n) ![0, 0, r] * (q.get k n / (Nlm k n : ℂ)) =
        if (-m).natAbs ≤ k then (-1) ^ k * (((l + k).factorial / (4 * Real.pi * r ^ (l + k + 1)) : ℝ) : ℂ) *
          (q.get k (-m) / (Nlm k (-m) : ℂ)) else 0 := by
      intro k _
      rw [sum_diag k (-m) _ (fun n hn => by rw [fO_ez _ _ _ hr, if_neg (by omega)]; simp)]
      congr 1
      rw [fO_ez _ _ _ hr, if_pos (by ring)]
    rw [Finset.sum_congr rfl h1, Finset.mul_sum]
    symm
    rw [← Finset.sum_filter_add_sum_filter_not _
      (fun k => m.natAbs ≤ k), Finset.sum_eq_zero (s := Finset.filter (fun k => ¬ m.natAbs ≤ k) _), add_zero]
    · refine Finset.sum_of_injOn (fun k => k - m.natAbs) ?_ ?_ ?_ ?_
      · intro a ha b hb hab
        simp only [Finset.coe_filter, Finset.mem_range, Set.mem_setOf_eq] at ha hb hab
        omega
      · intro a ha
        simp only [Finset.coe_filter, Finset.mem_range, Set.mem_setOf_eq, Finset.mem_coe] at ha ⊢
        omega
      · intro k hk hn
        exfalso
        apply hn
        rw [Finset.mem_range] at hk
        refine ⟨m.natAbs + k, ?_, by simp⟩
        simp only [Finset.coe_filter, Finset.mem_range, Set.mem_setOf_eq]
        omega
      · intro k hk
        rw [Finset.mem_filter, Finset.mem_range] at hk
        rw [SR_entry L r hr.ne' _ _ _ (by omega) (by omega), if_pos (by omega),
          show m.natAbs + (l - m.natAbs) = l by omega, show m.natAbs + (k - m.natAbs) = k by omega,
          show 2 * m.natAbs + (l - m.natAbs) + (k - m.natAbs) = l + k by omega, Nlm_natAbs, Nlm_natAbs,
          Nlm_neg]
        push_cast
        have h3 : (r : ℂ) ≠ 0 := by exact_mod_cast hr.ne'
        have h4 : (Real.pi : ℂ) ≠ 0 := by exact_mod_cast Real.pi_ne_zero
        have := Nlm_ne l m
        have := Nlm_ne k m
        field_simp
    · intro k hk
      rw [Finset.mem_filter] at hk
      rw [if_neg (by omega), mul_zero]
  · rfl

end Newt
