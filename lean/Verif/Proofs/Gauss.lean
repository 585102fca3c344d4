import Verif.Spec.Gauss
import Mathlib.MeasureTheory.Integral.IntervalIntegral.FundThmCalculus
import Mathlib.Analysis.SpecialFunctions.Integrals.Basic
import Mathlib.Algebra.Polynomial.BigOperators
import Mathlib.Algebra.Polynomial.Roots
import Mathlib.Topology.Algebra.Polynomial

/-! # Gauss-Legendre rules: what follows from exactness -/

namespace Newt.GLeg

open MeasureTheory Finset Polynomial Spec

theorem poly_int_pos (p : ℝ[X]) (h0 : p ≠ 0) (h : ∀ x ∈ Set.Icc (-1 : ℝ) 1, 0 ≤ p.eval x) :
    0 < ∫ x in (-1 : ℝ)..1, p.eval x := by
  have hex : ∃ c ∈ Set.Icc (-1 : ℝ) 1, p.eval c ≠ 0 := by
    by_contra hc
    push Not at hc
    apply h0
    refine Polynomial.eq_zero_of_infinite_isRoot p (Set.Infinite.mono (s := Set.Icc (-1 : ℝ) 1) ?_ ?_)
    · intro x hx; exact hc x hx
    · exact Set.Icc_infinite (by norm_num)
  obtain ⟨c, hc, hc0⟩ := hex
  refine intervalIntegral.integral_pos (by norm_num) p.continuous.continuousOn ?_ ⟨c, hc, ?_⟩
  · intro x hx; exact h x ⟨hx.1.le, hx.2⟩
  · exact lt_of_le_of_ne (h c hc) (Ne.symm hc0)

/-- The product over all nodes but the `j`-th. -/
noncomputable def omitP (r : Rule) (n j : ℕ) : ℝ[X] := ∏ i ∈ (range n).erase j, (X - C (r.s i))

theorem omit_ne (r : Rule) (n j : ℕ) : omitP r n j ≠ 0 := (monic_prod_of_monic _ _ fun i _ => monic_X_sub_C _).ne_zero

theorem omit_deg (r : Rule) (n j : ℕ) (hj : j < n) : (omitP r n j).natDegree = n - 1 := by
  rw [omitP, natDegree_prod_of_monic _ _ fun i _ => monic_X_sub_C _]
  simp [card_erase_of_mem (mem_range.2 hj)]

theorem omit_eval (r : Rule) (n j : ℕ) (x : ℝ) : (omitP r n j).eval x = ∏ i ∈ (range n).erase j, (x - r.s i) := by
  rw [omitP, eval_prod]; simp

theorem omit_zero (r : Rule) (n j i : ℕ) (hi : i < n) (hij : i ≠ j) : (omitP r n j).eval (r.s i) = 0 := by
  rw [omit_eval]
  exact prod_eq_zero (mem_erase.2 ⟨hij, mem_range.2 hi⟩) (sub_self _)

variable {r : Rule} {n : ℕ}

theorem sum_omit (g : Gauss r n) (j : ℕ) (hj : j < n) (q : ℝ[X]) (hq : q.natDegree ≤ 1) :
    ∫ x in (-1 : ℝ)..1, (omitP r n j ^ 2 * q).eval x = r.w j * (omitP r n j ^ 2 * q).eval (r.s j) := by
  rw [← g]
  · rw [sum_eq_single j]
    · intro i hi hij
      rw [eval_mul, eval_pow, omit_zero r n j i (mem_range.1 hi) hij]; ring
    · intro h; exact absurd (mem_range.2 hj) h
  · refine lt_of_le_of_lt natDegree_mul_le ?_
    have := (natDegree_pow_le (p := omitP r n j) (n := 2))
    rw [omit_deg r n j hj] at this
    omega

/-- The nodes lie strictly inside the interval. -/
theorem node_lt (g : Gauss r n) (j : ℕ) (hj : j < n) : |r.s j| < 1 := by
  rw [abs_lt]
  constructor
  · by_contra hc
    push Not at hc
    have h1 := sum_omit g j hj (X - C (r.s j)) (natDegree_X_sub_C_le _)
    have h2 := poly_int_pos (omitP r n j ^ 2 * (X - C (r.s j)))
      (mul_ne_zero (pow_ne_zero _ (omit_ne r n j)) (X_sub_C_ne_zero _)) (by
        intro x hx
        rw [eval_mul, eval_pow, eval_sub, eval_X, eval_C]
        have : 0 ≤ x - r.s j := by linarith [hx.1]
        positivity)
    rw [h1, eval_mul, eval_sub, eval_X, eval_C, sub_self] at h2
    simp at h2
  · by_contra hc
    push Not at hc
    have h1 := sum_omit g j hj (-(X - C (r.s j))) (by rw [natDegree_neg]; exact natDegree_X_sub_C_le _)
    have h2 := poly_int_pos (omitP r n j ^ 2 * (-(X - C (r.s j))))
      (mul_ne_zero (pow_ne_zero _ (omit_ne r n j)) (neg_ne_zero.2 (X_sub_C_ne_zero _))) (by
        intro x hx
        rw [eval_mul, eval_pow, eval_neg, eval_sub, eval_X, eval_C]
        have : 0 ≤ -(x - r.s j) := by linarith [hx.2]
        positivity)
    rw [h1, eval_mul, eval_neg, eval_sub, eval_X, eval_C, sub_self] at h2
    simp at h2

theorem weight_eq (g : Gauss r n) (j : ℕ) (hj : j < n) :
    0 < r.w j * (omitP r n j).eval (r.s j) ^ 2 := by
  have h1 := sum_omit g j hj 1 (by simp)
  have h2 := poly_int_pos (omitP r n j ^ 2 * 1) (mul_ne_zero (pow_ne_zero _ (omit_ne r n j)) one_ne_zero) (by
    intro x _
    rw [mul_one, eval_pow]; positivity)
  rw [h1, mul_one, eval_pow] at h2
  exact h2

/-- The weights are positive. -/
theorem weight_pos (g : Gauss r n) (j : ℕ) (hj : j < n) : 0 < r.w j :=
  pos_of_mul_pos_left (weight_eq g j hj) (sq_nonneg _)

/-- The nodes are distinct. -/
theorem node_inj (g : Gauss r n) {i j : ℕ} (hi : i < n) (hj : j < n) (h : r.s i = r.s j) : i = j := by
  by_contra hij
  have := weight_eq g j hj
  rw [← h, omit_zero r n j i hi hij] at this
  simp at this

/-- Powers are integrated exactly. -/
theorem gauss_pow (g : Gauss r n) (e : ℕ) (he : e < 2 * n) :
    ∑ i ∈ range n, r.w i * r.s i ^ e = ∫ x in (-1 : ℝ)..1, x ^ e := by
  have := g (X ^ e) (by rw [natDegree_X_pow]; exact he)
  simpa using this

theorem gauss_one (g : Gauss r n) (hn : n ≠ 0) : ∑ i ∈ range n, r.w i = 2 := by
  have := gauss_pow g 0 (by omega)
  simp only [pow_zero, mul_one] at this
  rw [this]; norm_num

/-- The product over all nodes. -/
noncomputable def all (r : Rule) (n : ℕ) : ℝ[X] := ∏ i ∈ range n, (X - C (r.s i))

theorem all_monic (r : Rule) (n : ℕ) : (all r n).Monic := monic_prod_of_monic _ _ fun i _ => monic_X_sub_C _

theorem all_deg (r : Rule) (n : ℕ) : (all r n).natDegree = n := by
  rw [all, natDegree_prod_of_monic _ _ fun i _ => monic_X_sub_C _]; simp

theorem all_eval (r : Rule) (n : ℕ) (x : ℝ) : (all r n).eval x = ∏ i ∈ range n, (x - r.s i) := by
  rw [all, eval_prod]; simp

theorem all_orth (g : Gauss r n) (q : ℝ[X]) (hq : q.natDegree < n) :
    ∫ x in (-1 : ℝ)..1, (all r n * q).eval x = 0 := by
  rw [← g]
  · refine sum_eq_zero fun i hi => ?_
    rw [eval_mul, all_eval, prod_eq_zero hi (sub_self _)]; ring
  · refine lt_of_le_of_lt natDegree_mul_le ?_
    rw [all_deg]; omega

theorem int_reflect (f : ℝ → ℝ) : ∫ x in (-1 : ℝ)..1, f (-x) = ∫ x in (-1 : ℝ)..1, f x := by
  rw [intervalIntegral.integral_comp_neg]; simp

/-- The nodes are symmetric about 0. -/
theorem node_symm (g : Gauss r n) (i : ℕ) (hi : i < n) : ∃ j < n, r.s j = -r.s i := by
  have hn : n ≠ 0 := by omega
  set a := all r n with ha
  set b : ℝ[X] := C ((-1) ^ n) * a.comp (-X) with hb
  have hbd : b.natDegree = n := by
    rw [hb, natDegree_C_mul (by simp), natDegree_comp, natDegree_neg, natDegree_X, mul_one, ha, all_deg]
  have hbl : b.leadingCoeff = 1 := by
    rw [hb, leadingCoeff_mul, leadingCoeff_C, leadingCoeff_comp (by rw [natDegree_neg, natDegree_X]; norm_num),
      leadingCoeff_neg, leadingCoeff_X, (all_monic r n).leadingCoeff, ha, all_deg, one_mul, ← mul_pow]
    simp
  have hborth : ∀ q : ℝ[X], q.natDegree < n → ∫ x in (-1 : ℝ)..1, (b * q).eval x = 0 := by
    intro q hq
    have h1 := all_orth g (q.comp (-X)) (by rwa [natDegree_comp, natDegree_neg, natDegree_X, mul_one])
    rw [← int_reflect] at h1
    simp only [eval_mul, eval_comp, eval_neg, eval_X, neg_neg] at h1
    have h2 : ∀ x : ℝ, (b * q).eval x = (-1) ^ n * ((all r n).eval (-x) * q.eval x) := by
      intro x
      rw [eval_mul, hb, eval_mul, eval_C, eval_comp, eval_neg, eval_X]; ring
    simp_rw [h2]
    rw [intervalIntegral.integral_const_mul, h1, mul_zero]
  have hd : (a - b).natDegree < n := by
    have hlt : (a - b).degree < a.degree := by
      apply degree_sub_lt
      · rw [degree_eq_natDegree (all_monic r n).ne_zero, degree_eq_natDegree (by
          intro h; rw [h] at hbl; simp at hbl), hbd, all_deg]
      · exact (all_monic r n).ne_zero
      · rw [hbl, (all_monic r n).leadingCoeff]
    rw [degree_eq_natDegree (all_monic r n).ne_zero, all_deg] at hlt
    by_cases h0 : a - b = 0
    · rw [h0, natDegree_zero]; omega
    · rw [degree_eq_natDegree h0] at hlt
      exact_mod_cast hlt
  have hz : a - b = 0 := by
    by_contra h0
    have hp := poly_int_pos ((a - b) * (a - b)) (mul_ne_zero h0 h0) (by
      intro x _; rw [eval_mul]; exact mul_self_nonneg _)
    have e : ∀ x : ℝ, ((a - b) * (a - b)).eval x = (a * (a - b)).eval x - (b * (a - b)).eval x := by
      intro x; rw [← eval_sub, ← sub_mul]
    simp_rw [e] at hp
    rw [intervalIntegral.integral_sub ((Polynomial.continuous _).intervalIntegrable _ _)
      ((Polynomial.continuous _).intervalIntegrable _ _), all_orth g _ hd, hborth _ hd] at hp
    simp at hp
  have h1 : a.eval (-r.s i) = 0 := by
    rw [sub_eq_zero.1 hz, hb, eval_mul, eval_comp, eval_neg, eval_X, neg_neg, ha, all_eval,
      prod_eq_zero (mem_range.2 hi) (sub_self _), mul_zero]
  rw [ha, all_eval, prod_eq_zero_iff] at h1
  obtain ⟨j, hj, h2⟩ := h1
  exact ⟨j, mem_range.1 hj, by linarith⟩

/-- Opposite nodes have equal weights. -/
theorem weight_symm (g : Gauss r n) {i j : ℕ} (hi : i < n) (hj : j < n) (h : r.s j = -r.s i) : r.w j = r.w i := by
  have h1 := sum_omit g i hi 1 (by simp)
  simp only [mul_one, eval_pow] at h1
  rw [← int_reflect] at h1
  have h2 := g ((omitP r n i).comp (-X) ^ 2) (by
    refine lt_of_le_of_lt natDegree_pow_le ?_
    rw [natDegree_comp, natDegree_neg, natDegree_X, mul_one, omit_deg r n i hi]; omega)
  simp only [eval_pow, eval_comp, eval_neg, eval_X] at h2
  rw [h1, sum_eq_single j] at h2
  · rw [h, neg_neg] at h2
    have h3 := weight_eq g i hi
    have hne : (omitP r n i).eval (r.s i) ^ 2 ≠ 0 := by
      intro hc; rw [hc, mul_zero] at h3; exact lt_irrefl _ h3
    exact mul_right_cancel₀ hne h2
  · intro k hk hkj
    obtain ⟨k', hk', e⟩ := node_symm g k (mem_range.1 hk)
    rw [← e]
    rw [omit_zero r n i k' hk' ?_]
    · ring
    · rintro rfl
      exact hkj (node_inj g (mem_range.1 hk) hj (by rw [h, e, neg_neg]))
  · intro hc; exact absurd (mem_range.2 hj) hc

/-- An odd function of the node sums to zero against the weights. -/
theorem sum_odd (g : Gauss r n) (f : ℝ → ℝ) (hf : ∀ x, f (-x) = -f x) : ∑ i ∈ range n, r.w i * f (r.s i) = 0 := by
  have hex : ∀ i, ∃ j, i < n → j < n ∧ r.s j = -r.s i := by
    intro i
    by_cases hi : i < n
    · obtain ⟨j, a, b⟩ := node_symm g i hi
      exact ⟨j, fun _ => ⟨a, b⟩⟩
    · exact ⟨0, fun h => absurd h hi⟩
  choose σ hσ using hex
  have key : ∑ i ∈ range n, r.w i * f (r.s i) = ∑ i ∈ range n, -(r.w i * f (r.s i)) := by
    refine sum_bij' (fun i _ => σ i) (fun i _ => σ i) ?_ ?_ ?_ ?_ ?_
    · intro i hi; exact mem_range.2 (hσ i (mem_range.1 hi)).1
    · intro i hi; exact mem_range.2 (hσ i (mem_range.1 hi)).1
    · intro i hi
      have a := hσ i (mem_range.1 hi)
      have b := hσ (σ i) a.1
      exact node_inj g b.1 (mem_range.1 hi) (by rw [b.2, a.2, neg_neg])
    · intro i hi
      have a := hσ i (mem_range.1 hi)
      have b := hσ (σ i) a.1
      exact node_inj g b.1 (mem_range.1 hi) (by rw [b.2, a.2, neg_neg])
    · intro i hi
      have a := hσ i (mem_range.1 hi)
      rw [weight_symm g (mem_range.1 hi) a.1 a.2, a.2, hf]; ring
  rw [sum_neg_distrib] at key
  linarith

/-- With at least two nodes, some node lies in the outer half of the interval. -/
theorem node_outer (g : Gauss r n) (hn : 2 ≤ n) : ∃ i < n, 1 / 2 < |r.s i| := by
  by_contra hc
  push Not at hc
  have h1 := gauss_pow g 2 (by omega)
  have h2 : ∑ i ∈ range n, r.w i * r.s i ^ 2 ≤ ∑ i ∈ range n, r.w i * (1 / 4) := by
    refine sum_le_sum fun i hi => mul_le_mul_of_nonneg_left ?_ (weight_pos g i (mem_range.1 hi)).le
    have := hc i (mem_range.1 hi)
    rw [← sq_abs]; nlinarith [abs_nonneg (r.s i)]
  rw [← sum_mul, gauss_one g (by omega), h1, integral_pow] at h2
  norm_num at h2

/-- Positive nodes exist as soon as there are two. -/
theorem node_neg (g : Gauss r n) (hn : 2 ≤ n) : ∃ i < n, r.s i < -(1 / 2) := by
  obtain ⟨i, hi, h⟩ := node_outer g hn
  rcases lt_abs.1 h with h | h
  · obtain ⟨j, hj, e⟩ := node_symm g i hi
    exact ⟨j, hj, by linarith⟩
  · exact ⟨i, hi, by linarith⟩

end Newt.GLeg
