import Verif.Model.TranslYuk
import Mathlib.Analysis.SpecialFunctions.Trigonometric.DerivHyp
import Mathlib.Analysis.SpecialFunctions.ExpDeriv

/-!
# C82: the Yukawa coaxial translation matrices
-/

namespace Newt.trr

/-- The alternating symmetry of the matrices, for every start column. -/
theorem yukFinal_symm (LMax : ℕ) (start : ℕ → ℝ) (m i j : ℕ) :
    yukFinal LMax start m j i = (-1) ^ (i + j) * yukFinal LMax start m i j := by
  rcases eq_or_ne i j with rfl | h
  · rw [← two_mul, pow_mul]; simp
  · simp only [yukFinal, if_neg h, if_neg h.symm, sub_zero]
    have e1 : ((-1 : ℝ) ^ (m + j) * (-1) ^ (m + i)) = (-1) ^ (i + j) := by
      rw [← pow_add, show m + j + (m + i) = 2 * m + (i + j) by ring, pow_add, pow_mul]; simp
    have e2 : ((-1 : ℝ) ^ (m + i) * (-1) ^ (m + j)) = (-1) ^ (i + j) := by
      rw [mul_comm, e1]
    have e3 : ((-1 : ℝ) ^ (i + j)) * (-1) ^ (i + j) = 1 := by
      rw [← mul_pow]; simp
    rw [e1, e2]
    linear_combination (- yukMat LMax start m i j) * e3

theorem yukMat_upper (LMax : ℕ) (start : ℕ → ℝ) (m n l : ℕ) (h : l < n) : yukMat LMax start m n l = 0 := by
  match n, h with
  | 1, h => rw [yukMat, if_neg (by omega)]
  | n + 2, h => rw [yukMat, if_neg (by omega)]

/-- On and below the diagonal the matrix is the recursion table. -/
theorem yukFinal_lower (LMax : ℕ) (start : ℕ → ℝ) (m i j : ℕ) (h : j ≤ i) :
    yukFinal LMax start m i j = yukMat LMax start m j i := by
  rcases eq_or_ne i j with rfl | hne
  · simp [yukFinal]
  · simp only [yukFinal, if_neg hne, yukMat_upper LMax start m i j (by omega)]
    ring

theorem get_anm_pos (n m : ℤ) (h : |m| ≤ n) : 0 < get_anm n m := by
  rw [get_anm, if_neg (by omega)]
  have h0 : (0 : ℝ) ≤ |(m : ℝ)| := abs_nonneg _
  have h1 : |(m : ℝ)| ≤ n := by exact_mod_cast h
  apply Real.sqrt_pos.2
  push_cast
  apply div_pos <;> apply mul_pos <;> linarith

theorem get_anm_zero (n m : ℤ) (h : n < |m|) : get_anm n m = 0 := by rw [get_anm, if_pos h]

theorem get_bnm_ne (m : ℕ) : get_bnm (m + 1) (-m - 1) ≠ 0 := by
  have h1 : |(-(m : ℤ) - 1)| ≤ (m : ℤ) + 1 := by
    rw [show (-(m : ℤ) - 1) = -((m : ℤ) + 1) by ring, abs_neg, abs_of_nonneg (by omega)]
  rw [get_bnm, if_neg (by omega)]
  have h0 : (0 : ℝ) ≤ m := Nat.cast_nonneg m
  have hs : ((m : ℤ) + 1).sign = 1 := Int.sign_eq_one_of_pos (by omega)
  rw [hs]
  have : 0 < ((((m : ℤ) + 1 : ℤ) : ℝ) - ((-(m : ℤ) - 1 : ℤ) : ℝ) - 1) * ((((m : ℤ) + 1 : ℤ) : ℝ) - ((-(m : ℤ) - 1 : ℤ) : ℝ))
      / ((2 * (((m : ℤ) + 1 : ℤ) : ℝ) - 1) * (2 * (((m : ℤ) + 1 : ℤ) : ℝ) + 1)) := by
    push_cast
    apply div_pos <;> apply mul_pos <;> linarith
  have := (Real.sqrt_pos.2 this).ne'
  simpa using this

theorem get_bnm_zero (m : ℕ) : get_bnm 0 (-m - 1) = 0 := by
  rw [get_bnm, if_pos]
  rw [show (-(m : ℤ) - 1) = -((m : ℤ) + 1) by ring, abs_neg, abs_of_nonneg (by omega)]
  omega

section zero

variable (LMax : ℕ) (start : ℕ → ℝ) (h0 : start 0 = 1) (h1 : ∀ l, 0 < l → start l = 0)

include h0 h1

theorem yukCol_zero (m l : ℕ) (hm : m ≤ LMax) : yukCol LMax start m l = if l = m then 1 else 0 := by
  induction m generalizing l with
  | zero =>
    rw [yukCol]
    rcases Nat.eq_zero_or_pos l with rfl | h
    · simp [h0]
    · rw [h1 l h, if_neg h.ne']; simp
  | succ m ih =>
    have hb : (if l + 1 = m then (1 : ℝ) else 0) * get_bnm (l + 1) m = 0 := by
      split_ifs with h
      · rw [← h]; simp [get_bnm]
      · simp
    rw [yukCol, ih _ (by omega), ih _ (by omega), hb, sub_zero]
    rcases Nat.eq_zero_or_pos l with rfl | hl
    · simp [get_bnm_zero m]
    · rw [if_neg hl.ne']
      by_cases hlm : l = m + 1
      · subst hlm
        have e : (((m + 1 : ℕ) : ℤ)) = (m : ℤ) + 1 := by push_cast; rfl
        rw [if_pos (by omega), if_pos (by omega), if_pos rfl, one_mul, e, div_self (get_bnm_ne m)]
      · rw [if_neg (by omega : ¬ l - 1 = m), if_neg hlm, zero_mul, zero_div, ite_self]

/-- At zero displacement the table of the order `m` is `1` in the corner and `-1` further down the diagonal. -/
theorem yukMat_zero (m : ℕ) (hm : m ≤ LMax) (n l : ℕ) (hn : n ≤ LMax - m) :
    yukMat LMax start m n l = if l = n then (if n = 0 then 1 else -1) else 0 := by
  induction n using Nat.twoStepInduction generalizing l with
  | zero =>
    rw [yukMat, yukCol_zero LMax start h0 h1 m _ hm]
    by_cases hl : l = 0
    · simp [hl]; omega
    · rw [if_neg (by omega : ¬ m + l = m), if_neg hl, ite_self]
  | one =>
    rw [yukMat]
    have ih : ∀ l, yukMat LMax start m 0 l = if l = 0 then 1 else 0 := by
      intro l
      rw [yukMat, yukCol_zero LMax start h0 h1 m _ hm]
      by_cases hl : l = 0
      · simp [hl]; omega
      · rw [if_neg (by omega : ¬ m + l = m), if_neg hl, ite_self]
    by_cases hr : 1 ≤ l ∧ l < 2 * (LMax - m)
    · rw [if_pos hr, yukCell]
      have hz : get_anm (((0 : ℕ) : ℤ) - 1 + m) m = 0 := get_anm_zero _ _ (by simp)
      have hp := get_anm_pos (((0 : ℕ) : ℤ) + m) m (by simp)
      simp only [hz, ne_eq, not_true, if_false, ih]
      rw [if_neg (by omega : ¬ l + 1 = 0)]
      by_cases hl : l = 1
      · subst hl
        simp only [Nat.sub_self, if_true, mul_zero, zero_sub, mul_one, one_ne_zero, if_false]
        have : (((1 : ℕ) : ℤ) - 1 + m) = (((0 : ℕ) : ℤ) + m) := by simp
        rw [this, neg_div, div_self hp.ne']
      · rw [if_neg (by omega : ¬ l - 1 = 0), if_neg hl]; simp
    · rw [if_neg hr, if_neg (by omega)]
  | more n ih1 ih2 =>
    rw [yukMat]
    by_cases hr : n + 2 ≤ l ∧ l < 2 * (LMax - m) - (n + 1)
    · rw [if_pos hr, yukCell]
      have hp := get_anm_pos (((n + 1 : ℕ) : ℤ) + m) m (by simp; omega)
      have hz := get_anm_pos (((n + 1 : ℕ) : ℤ) - 1 + m) m (by simp)
      simp only [ne_eq, hz.ne', not_false_eq_true, if_true, ih1 l (by omega), ih2 _ (by omega : n + 1 ≤ LMax - m)]
      rw [if_neg (by omega : ¬ l + 1 = n + 1), if_neg (by omega : ¬ l = n)]
      by_cases hl : l = n + 2
      · subst hl
        rw [if_pos (by omega), if_neg (by omega), if_pos rfl, if_neg (by omega)]
        have : (((n + 2 : ℕ) : ℤ) - 1 + m) = (((n + 1 : ℕ) : ℤ) + m) := by push_cast; ring
        rw [this]
        field_simp
        ring
      · rw [if_neg (by omega : ¬ l - 1 = n + 1), if_neg hl]; simp
    · rw [if_neg hr, if_neg (by omega)]

theorem yukFinal_zero (m i j : ℕ) (hm : m ≤ LMax) (hi : i ≤ LMax - m) (hj : j ≤ LMax - m) :
    yukFinal LMax start m i j = if i = j then (if i = 0 then 1 else -1) else 0 := by
  rcases le_total j i with h | h
  · rw [yukFinal_lower _ _ _ _ _ h, yukMat_zero LMax start h0 h1 m hm j i hj]
    by_cases e : i = j
    · subst e; simp
    · simp [e]
  · rw [yukFinal_symm, yukFinal_lower _ _ _ _ _ h, yukMat_zero LMax start h0 h1 m hm i j hi]
    by_cases e : i = j
    · subst e; simp [← two_mul, pow_mul]
    · simp [e, Ne.symm e]

end zero

theorem RR_get (LMax : ℕ) (dr k : ℝ) (m i j : ℕ) : (transl_yuk_z_RR_recurs LMax dr k).2.getD m 0 i j
    = if m < LMax + 1 then
        yukFinal LMax (fun l : ℕ => (-1) ^ l * Real.sqrt (2 * l + 1) * sphericalIn l (k * dr)) m i j else 0 := by
  by_cases hm : m < LMax + 1 <;> simp [transl_yuk_z_RR_recurs, List.getD, hm]

theorem SR_get (LMax : ℕ) (dr k : ℝ) (m i j : ℕ) : (transl_yuk_z_SR_recurs LMax dr k).2.getD m 0 i j
    = if m < LMax + 1 then
        yukFinal LMax (fun l : ℕ => (-1) ^ l * Real.sqrt (2 * l + 1) * sphericalKn l (k * dr)) m i j else 0 := by
  by_cases hm : m < LMax + 1 <;> simp [transl_yuk_z_SR_recurs, List.getD, hm]

/-- **C82.** The matrices of both routines have the alternating symmetry `M[j, i] = (-1)^(i+j) M[i, j]`. -/
theorem C82_symmetric (LMax : ℕ) (dr k : ℝ) (m i j : ℕ) :
    ((transl_yuk_z_RR_recurs LMax dr k).2.getD m 0 j i
        = (-1) ^ (i + j) * (transl_yuk_z_RR_recurs LMax dr k).2.getD m 0 i j) ∧
      (transl_yuk_z_SR_recurs LMax dr k).2.getD m 0 j i
        = (-1) ^ (i + j) * (transl_yuk_z_SR_recurs LMax dr k).2.getD m 0 i j := by
  rw [RR_get, RR_get, SR_get, SR_get]
  split_ifs
  · exact ⟨yukFinal_symm _ _ _ _ _, yukFinal_symm _ _ _ _ _⟩
  · simp

/-- **C82.** The regular-to-regular matrices for zero displacement are not the identity: applied to an
array they change the sign of every moment with `l > |m|`. -/
theorem C82_RR_zero {L : ℕ} (q : Mom L) (k : ℝ) :
    apply_trans_mat q (transl_yuk_z_RR_recurs L 0 k).2 false
      = some (Mom.ofFn L fun l m => if l = m.natAbs then q.get l m else if m.natAbs < l then -q.get l m else 0) := by
  rw [apply_trans_mat, if_neg (by simp [transl_yuk_z_RR_recurs])]
  simp only [Bool.false_eq_true, if_false, Option.some.injEq]
  apply Mom.ext_get
  intro l m hl hm
  rw [Mom.get_ofFn _ hl hm, Mom.get_ofFn _ hl hm]
  by_cases h : m.natAbs ≤ l
  · rw [if_pos h, Finset.sum_eq_single (l - m.natAbs)]
    · rw [RR_get, if_pos (by omega), yukFinal_zero L _ (by simp [sphericalIn]) (fun l hl => by
        simp [sphericalIn, hl.ne']) _ _ _ (by omega) (by omega) (by omega), if_pos rfl,
        show m.natAbs + (l - m.natAbs) = l by omega]
      by_cases e : l = m.natAbs
      · rw [if_pos (by omega), if_pos e]; simp
      · rw [if_neg (by omega), if_neg e, if_pos (by omega)]; simp
    · intro b hb hne
      have := Finset.mem_range.1 hb
      rw [RR_get, if_pos (by omega), yukFinal_zero L _ (by simp [sphericalIn]) (fun l hl => by
        simp [sphericalIn, hl.ne']) _ _ _ (by omega) (by omega) (by omega), if_neg hne.symm]
      simp
    · intro h'; exfalso; apply h'; exact Finset.mem_range.2 (by omega)
  · rw [if_neg h, if_neg (by omega), if_neg (by omega)]

theorem yuk_11 (LMax : ℕ) (start : ℕ → ℝ) (hL : 1 ≤ LMax) :
    yukFinal LMax start 0 1 1 = 2 / Real.sqrt 5 * start 2 - start 0 := by
  rw [yukFinal_lower _ _ _ _ _ le_rfl, yukMat, if_pos (by omega), yukCell]
  have hz : get_anm (((0 : ℕ) : ℤ) - 1 + ((0 : ℕ) : ℤ)) ((0 : ℕ) : ℤ) = 0 := get_anm_zero _ _ (by simp)
  have ha : get_anm (((0 : ℕ) : ℤ) + ((0 : ℕ) : ℤ)) ((0 : ℕ) : ℤ) = 1 / Real.sqrt 3 := by
    simp [get_anm]
  have hb : get_anm (((1 : ℕ) : ℤ) + ((0 : ℕ) : ℤ)) ((0 : ℕ) : ℤ) = 2 / (Real.sqrt 3 * Real.sqrt 5) := by
    simp only [get_anm]
    norm_num
    rw [show (15 : ℝ) = 3 * 5 by norm_num, Real.sqrt_mul (by norm_num)]
  have hc : get_anm (((1 : ℕ) : ℤ) - 1 + ((0 : ℕ) : ℤ)) ((0 : ℕ) : ℤ) = 1 / Real.sqrt 3 := by
    simp [get_anm]
  simp only [hz, ha, hb, hc, ne_eq, not_true, if_false]
  rw [yukMat, yukMat, if_pos (by omega), if_pos (by omega), yukCol, yukCol, if_pos (by omega), if_pos (by omega)]
  have h3 : Real.sqrt 3 ≠ 0 := by positivity
  have h5 : Real.sqrt 5 ≠ 0 := by positivity
  simp only [zero_add, Nat.sub_self, Nat.reduceAdd]
  field_simp

/-- **C82.** The regular-to-regular matrices are wrong for every displacement.  On the axis the dipole
function is `sqrt(3) i_1(k z)` (in units of `Y_00`), and among the regular functions only `l = 1` has a slope
at the new origin, `sqrt(3) k/3`; so the coefficient `(1, 1)` of the order `m = 0` has to be `3 i_1'(k dr)`
(the same for both directions, `i_1'` being even).  It is not. -/
theorem C82_RR_wrong (LMax : ℕ) (hL : 1 ≤ LMax) (dr k : ℝ) (hx : 0 < k * dr) :
    ¬ HasDerivAt (fun x => 3 * sphericalIn 1 x) ((transl_yuk_z_RR_recurs LMax dr k).2.getD 0 0 1 1) (k * dr) := by
  rw [RR_get, if_pos (by omega), yuk_11 LMax _ hL]
  generalize k * dr = x at hx ⊢
  have h5 : Real.sqrt 5 ≠ 0 := by positivity
  intro h
  have h' : HasDerivAt (fun x : ℝ => 3 * ((x * Real.cosh x - Real.sinh x) / x ^ 2))
      (3 * (((1 * Real.cosh x + x * Real.sinh x - Real.cosh x) * x ^ 2
        - (x * Real.cosh x - Real.sinh x) * (2 * x)) / (x ^ 2) ^ 2)) x := by
    apply HasDerivAt.const_mul
    apply HasDerivAt.div
    · exact ((hasDerivAt_id x).mul (Real.hasDerivAt_cosh x)).sub (Real.hasDerivAt_sinh x)
    · simpa using hasDerivAt_pow 2 x
    · positivity
  have h'' : HasDerivAt (fun x => 3 * sphericalIn 1 x) (3 * (((1 * Real.cosh x + x * Real.sinh x - Real.cosh x) * x ^ 2
        - (x * Real.cosh x - Real.sinh x) * (2 * x)) / (x ^ 2) ^ 2)) x := by
    refine h'.congr_of_eventuallyEq ?_
    filter_upwards [eventually_ne_nhds hx.ne'] with y hy
    simp [sphericalIn, hy, sphericalInPair]
  have e := h.unique h''
  have hs : 0 < Real.sinh x := Real.sinh_pos_iff.2 hx
  have v0 : sphericalIn 0 x = Real.sinh x / x := by simp [sphericalIn, hx.ne', sphericalInPair]
  have v2 : sphericalIn 2 x = Real.sinh x / x - 3 / x * ((x * Real.cosh x - Real.sinh x) / x ^ 2) := by
    simp [sphericalIn, hx.ne', sphericalInPair]
  simp only [v0, v2] at e
  norm_num at e
  field_simp at e
  nlinarith [mul_pos hs hx, mul_pos (mul_pos hs hx) hx]

/-- **C82.** The same for the singular-to-regular matrices: the coefficient `(1, 1)` has to be
`3 k_1'(k dr)`. -/
theorem C82_SR_wrong (LMax : ℕ) (hL : 1 ≤ LMax) (dr k : ℝ) (hx : 0 < k * dr) :
    ¬ HasDerivAt (fun x => 3 * sphericalKn 1 x) ((transl_yuk_z_SR_recurs LMax dr k).2.getD 0 0 1 1) (k * dr) := by
  rw [SR_get, if_pos (by omega), yuk_11 LMax _ hL]
  generalize k * dr = x at hx ⊢
  have h5 : Real.sqrt 5 ≠ 0 := by positivity
  intro h
  have h' : HasDerivAt (fun x : ℝ => 3 * (Real.pi / 2 * Real.exp (-x) * (1 / x + 1 / x ^ 2)))
      (3 * ((Real.pi / 2 * (Real.exp (-x) * -1)) * (1 / x + 1 / x ^ 2)
        + Real.pi / 2 * Real.exp (-x) * ((0 * x - 1 * 1) / x ^ 2 + (0 * x ^ 2 - 1 * (2 * x)) / (x ^ 2) ^ 2))) x := by
    apply HasDerivAt.const_mul
    apply HasDerivAt.mul
    · apply HasDerivAt.const_mul
      exact (hasDerivAt_neg x).exp
    · apply HasDerivAt.add
      · exact (hasDerivAt_const x 1).div (hasDerivAt_id x) hx.ne'
      · exact (hasDerivAt_const x 1).div (by simpa using hasDerivAt_pow 2 x) (by positivity)
  have h'' : (fun x => 3 * sphericalKn 1 x) = fun x : ℝ => 3 * (Real.pi / 2 * Real.exp (-x) * (1 / x + 1 / x ^ 2)) := by
    funext y; simp [sphericalKn, sphericalKnPair]
  rw [h''] at h
  have e := h.unique h'
  have he : 0 < Real.exp (-x) := Real.exp_pos _
  have hpi := Real.pi_pos
  have v0 : sphericalKn 0 x = Real.pi / 2 * Real.exp (-x) / x := by simp [sphericalKn, sphericalKnPair]
  have v2 : sphericalKn 2 x = Real.pi / 2 * Real.exp (-x) / x + 3 / x * (Real.pi / 2 * Real.exp (-x) * (1 / x + 1 / x ^ 2)) := by
    simp [sphericalKn, sphericalKnPair]
  simp only [v0, v2] at e
  norm_num at e
  field_simp at e
  nlinarith [mul_pos he hpi, mul_pos (mul_pos he hpi) hx, mul_pos (mul_pos (mul_pos he hpi) hx) hx]

/-- **C82.** The first column of the order `m = 0` matrices holds the coefficients of the monopole function,
the first row the same without the alternating sign. -/
theorem C82_first_column (LMax : ℕ) (dr k : ℝ) (l : ℕ) (hl : l ≤ LMax) :
    (transl_yuk_z_RR_recurs LMax dr k).2.getD 0 0 l 0 = (-1) ^ l * Real.sqrt (2 * l + 1) * sphericalIn l (k * dr) ∧
      (transl_yuk_z_RR_recurs LMax dr k).2.getD 0 0 0 l = Real.sqrt (2 * l + 1) * sphericalIn l (k * dr) ∧
      (transl_yuk_z_SR_recurs LMax dr k).2.getD 0 0 l 0 = (-1) ^ l * Real.sqrt (2 * l + 1) * sphericalKn l (k * dr) ∧
      (transl_yuk_z_SR_recurs LMax dr k).2.getD 0 0 0 l = Real.sqrt (2 * l + 1) * sphericalKn l (k * dr) := by
  have key : ∀ start : ℕ → ℝ, yukFinal LMax start 0 l 0 = start l := by
    intro start
    rw [yukFinal_lower _ _ _ _ _ (Nat.zero_le l), yukMat, if_pos (by omega), yukCol, if_pos (by omega), zero_add]
  have e : ((-1 : ℝ) ^ l) * (-1) ^ l = 1 := by rw [← mul_pow]; simp
  refine ⟨?_, ?_, ?_, ?_⟩
  · rw [RR_get, if_pos (by omega), key]
  · rw [RR_get, if_pos (by omega), yukFinal_symm, key, add_zero]; linear_combination (Real.sqrt (2 * l + 1) * sphericalIn l (k * dr)) * e
  · rw [SR_get, if_pos (by omega), key]
  · rw [SR_get, if_pos (by omega), yukFinal_symm, key, add_zero]; linear_combination (Real.sqrt (2 * l + 1) * sphericalKn l (k * dr)) * e

/-- A dipole is turned round by a "translation" by nothing, so the matrices cannot be those of a
translation. -/
example : ∃ q : Mom 1, apply_trans_mat q (transl_yuk_z_RR_recurs 1 0 1).2 false ≠ some q := by
  refine ⟨Mom.ofFn 1 fun _ _ => 1, fun h => ?_⟩
  rw [C82_RR_zero, Option.some.injEq] at h
  have := congrArg (fun q : Mom 1 => q.get 1 0) h
  simp only [Mom.get_ofFn _ (le_refl 1) (by simp : (0 : ℤ).natAbs ≤ 1)] at this
  norm_num at this

example : ¬ HasDerivAt (fun x => 3 * sphericalKn 1 x) ((transl_yuk_z_SR_recurs 3 2 1).2.getD 0 0 1 1) (1 * 2) :=
  C82_SR_wrong 3 (by norm_num) 2 1 (by norm_num)

end Newt.trr
