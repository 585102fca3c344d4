import Verif.Proofs.Gauss
import Mathlib.Analysis.Calculus.LocalExtr.Polynomial
import Mathlib.LinearAlgebra.Lagrange
import Mathlib.MeasureTheory.Integral.IntervalIntegral.IntegrationByParts

/-! # Gauss-Legendre rules exist for every number of nodes

The hypothesis `Spec.Gauss` of the theorems about newt/gShapeGL.py can be met for every `n`: the nodes are the
roots of the Legendre polynomial `D^n (x² - 1)^n`. -/

namespace Newt.GLeg

open MeasureTheory Finset Polynomial Spec

/-- `(x² - 1)^n`. -/
noncomputable def rod (n : ℕ) : ℝ[X] := (X - C 1) ^ n * (X - C (-1)) ^ n

theorem rod_monic (n : ℕ) : (rod n).Monic := ((monic_X_sub_C _).pow n).mul ((monic_X_sub_C _).pow n)

theorem rod_deg (n : ℕ) : (rod n).natDegree = 2 * n := by
  rw [rod, ((monic_X_sub_C _).pow n).natDegree_mul ((monic_X_sub_C _).pow n), (monic_X_sub_C _).natDegree_pow,
    (monic_X_sub_C _).natDegree_pow, natDegree_X_sub_C, natDegree_X_sub_C]
  ring

theorem rod_root (n k : ℕ) (hk : k < n) (t : ℝ) (ht : t = 1 ∨ t = -1) : (derivative^[k] (rod n)).eval t = 0 := by
  have h : n ≤ (rod n).rootMultiplicity t := by
    rw [le_rootMultiplicity_iff (rod_monic n).ne_zero, rod]
    rcases ht with rfl | rfl
    · exact dvd_mul_right _ _
    · exact dvd_mul_left _ _
  exact isRoot_iterate_derivative_of_lt_rootMultiplicity (lt_of_lt_of_le hk h)

/-- Integration by parts against `D^n (x² - 1)^n`. -/
theorem rod_parts (n : ℕ) (q : ℝ[X]) (k : ℕ) (hk : k ≤ n) :
    ∫ x in (-1 : ℝ)..1, (derivative^[n] (rod n)).eval x * q.eval x
      = (-1) ^ k * ∫ x in (-1 : ℝ)..1, (derivative^[n - k] (rod n)).eval x * (derivative^[k] q).eval x := by
  induction k with
  | zero => simp
  | succ k ih =>
    rw [ih (by omega), pow_succ, mul_assoc]
    congr 1
    obtain ⟨j, hj⟩ : ∃ j, n - k = j + 1 := ⟨n - k - 1, by omega⟩
    have hj' : n - (k + 1) = j := by omega
    rw [hj, hj', Function.iterate_succ_apply', Function.iterate_succ_apply']
    set u := derivative^[j] (rod n) with hu
    set v := derivative^[k] q with hv
    have h := intervalIntegral.integral_deriv_mul_eq_sub (a := -1) (b := 1) (u := fun x => u.eval x) (v := fun x => v.eval x)
      (u' := fun x => u.derivative.eval x) (v' := fun x => v.derivative.eval x) (fun x _ => u.hasDerivAt x)
      (fun x _ => v.hasDerivAt x) (u.derivative.continuous.intervalIntegrable _ _) (v.derivative.continuous.intervalIntegrable _ _)
    have e1 : u.eval 1 = 0 := rod_root n j (by omega) 1 (Or.inl rfl)
    have e2 : u.eval (-1) = 0 := rod_root n j (by omega) (-1) (Or.inr rfl)
    simp only [e1, e2, zero_mul, sub_zero] at h
    rw [intervalIntegral.integral_add] at h
    · linarith
    · exact (u.derivative.continuous.mul v.continuous).intervalIntegrable _ _
    · exact (u.continuous.mul v.derivative.continuous).intervalIntegrable _ _

/-- The Legendre polynomial is orthogonal to every polynomial of smaller degree. -/
theorem rod_orth (n : ℕ) (q : ℝ[X]) (hq : q.natDegree < n) :
    ∫ x in (-1 : ℝ)..1, (derivative^[n] (rod n)).eval x * q.eval x = 0 := by
  rw [rod_parts n q n le_rfl, iterate_derivative_eq_zero hq]
  simp

theorem leg_deg (n k : ℕ) (hk : k ≤ 2 * n) : (derivative^[k] (rod n)).natDegree = 2 * n - k ∧ derivative^[k] (rod n) ≠ 0 := by
  induction k with
  | zero => exact ⟨rod_deg n, (rod_monic n).ne_zero⟩
  | succ k ih =>
    obtain ⟨h1, h2⟩ := ih (by omega)
    rw [Function.iterate_succ_apply']
    set p := derivative^[k] (rod n) with hp
    have hd : p.derivative.natDegree = 2 * n - (k + 1) := by
      rw [natDegree_derivative, h1]
      omega
    refine ⟨hd, fun h0 => ?_⟩
    have := natDegree_eq_zero_of_derivative_eq_zero h0
    omega

theorem rod_roots (n : ℕ) : Multiset.card (rod n).roots = 2 * n := by
  rw [rod, roots_mul (rod_monic n).ne_zero, roots_pow, roots_pow, roots_X_sub_C, roots_X_sub_C]
  simp
  ring

theorem leg_roots_card (n k : ℕ) (hk : k ≤ 2 * n) : 2 * n - k ≤ Multiset.card (derivative^[k] (rod n)).roots := by
  induction k with
  | zero => rw [Function.iterate_zero, id, rod_roots]; omega
  | succ k ih =>
    have := ih (by omega)
    have h := card_roots_le_derivative (derivative^[k] (rod n))
    rw [Function.iterate_succ_apply']
    omega

/-- The Legendre polynomial has `n` different real roots. -/
theorem leg_nodup (n : ℕ) : (derivative^[n] (rod n)).roots.Nodup := by
  set P := derivative^[n] (rod n) with hP
  obtain ⟨hd, h0⟩ := leg_deg n n (by omega)
  rw [← hP] at hd h0
  rw [Multiset.nodup_iff_count_le_one]
  intro r
  by_contra hc
  push Not at hc
  rw [count_roots] at hc
  have h2 : (X - C r) ^ 2 ∣ P := (pow_dvd_pow _ hc).trans (P.pow_rootMultiplicity_dvd r)
  obtain ⟨q, hq⟩ := h2
  have hq0 : q ≠ 0 := fun h => h0 (by rw [hq, h, mul_zero])
  have hdq : q.natDegree + 2 = n := by
    have := congrArg natDegree hq
    rw [((monic_X_sub_C r).pow 2).natDegree_mul' hq0, (monic_X_sub_C r).natDegree_pow, natDegree_X_sub_C, hd] at this
    omega
  have h1 := rod_orth n q (by omega)
  rw [← hP] at h1
  have h3 := poly_int_pos (((X - C r) * q) ^ 2) (pow_ne_zero _ (mul_ne_zero (X_sub_C_ne_zero r) hq0)) (by
    intro x _; rw [eval_pow]; exact sq_nonneg _)
  have e : ∀ x, (((X - C r) * q) ^ 2).eval x = P.eval x * q.eval x := by
    intro x; rw [hq]; simp; ring
  simp only [e, h1] at h3
  exact lt_irrefl _ h3

/-- For every `n` there is a Gauss-Legendre rule. -/
theorem gauss_exists (n : ℕ) : ∃ r : Rule, Gauss r n := by
  set P := derivative^[n] (rod n) with hP
  obtain ⟨hd, h0⟩ := leg_deg n n (by omega)
  rw [← hP] at hd h0
  have hd : P.natDegree = n := by omega
  have hc : Multiset.card P.roots = n := by
    refine le_antisymm ?_ ?_
    · rw [← hd]; exact P.card_roots'
    · have := leg_roots_card n n (by omega); rw [← hP] at this; omega
  have hcard : P.roots.toFinset.card = n := by
    rw [Multiset.toFinset_card_of_nodup (leg_nodup n), hc]
  set s : ℕ → ℝ := fun i => if h : i < n then (P.roots.toFinset.orderEmbOfFin hcard ⟨i, h⟩) else 0 with hs
  have hinj : Set.InjOn s (range n : Set ℕ) := by
    intro i hi j hj h
    have hi : i < n := by simpa using hi
    have hj : j < n := by simpa using hj
    simp only [hs, dif_pos hi, dif_pos hj] at h
    have := (P.roots.toFinset.orderEmbOfFin hcard).injective h
    exact congrArg Fin.val this
  have hroot : ∀ i < n, P.eval (s i) = 0 := by
    intro i hi
    have := P.roots.toFinset.orderEmbOfFin_mem hcard ⟨i, hi⟩
    rw [Multiset.mem_toFinset, mem_roots h0] at this
    simp only [hs, dif_pos hi]
    exact this
  refine ⟨⟨s, fun i => ∫ x in (-1 : ℝ)..1, (Lagrange.basis (range n) s i).eval x⟩, fun p hp => ?_⟩
  simp only
  rcases Nat.eq_zero_or_pos n with hn | hn
  · omega
  have hdiv := EuclideanDomain.div_add_mod p P
  set q := p / P with hq
  set r := p % P with hr
  have hrd : r.degree < n := by
    have := EuclideanDomain.mod_lt p h0
    rw [← hr] at this
    have h1 : r.degree < P.degree := this
    rwa [degree_eq_natDegree h0, hd] at h1
  have hqd : q.natDegree < n := by
    by_cases hq0 : q = 0
    · rw [hq0]; simpa using hn
    · have h1 : P * q = p - r := by rw [← hdiv]; ring
      have h2 : (P * q).natDegree = n + q.natDegree := by rw [natDegree_mul h0 hq0, hd]
      have h3 : r.natDegree < 2 * n := by
        rcases eq_or_ne r 0 with h | h
        · rw [h]; simpa using hn
        · have := (natDegree_lt_iff_degree_lt h).2 hrd
          omega
      have h4 := natDegree_sub_le p r
      rw [← h1, h2] at h4
      have := max_lt hp h3
      omega
  have hpe : ∀ i ∈ range n, p.eval (s i) = r.eval (s i) := by
    intro i hi
    rw [← hdiv, eval_add, eval_mul, hroot i (mem_range.1 hi), zero_mul, zero_add]
  have hint : ∫ x in (-1 : ℝ)..1, p.eval x = ∫ x in (-1 : ℝ)..1, r.eval x := by
    have : ∀ x, p.eval x = P.eval x * q.eval x + r.eval x := by
      intro x; rw [← eval_mul, ← eval_add, hdiv]
    have hi : IntervalIntegrable (fun x => P.eval x * q.eval x) volume (-1) 1 :=
      (P.continuous.mul q.continuous).intervalIntegrable _ _
    simp only [this]
    rw [intervalIntegral.integral_add hi (r.continuous.intervalIntegrable _ _),
      rod_orth n q hqd, zero_add]
  rw [hint, sum_congr rfl fun i hi => by rw [hpe i hi]]
  have hL := Lagrange.eq_interpolate (s := range n) hinj (f := r) (by rwa [card_range])
  have hev : ∀ x, r.eval x = ∑ i ∈ range n, r.eval (s i) * (Lagrange.basis (range n) s i).eval x := by
    intro x
    conv_lhs => rw [hL]
    rw [Lagrange.interpolate_apply, eval_finset_sum]
    simp
  have hev' : (fun x => r.eval x) = fun x => ∑ i ∈ range n, r.eval (s i) * (Lagrange.basis (range n) s i).eval x := funext hev
  rw [hev', intervalIntegral.integral_finset_sum]
  · refine sum_congr rfl fun i _ => ?_
    rw [intervalIntegral.integral_const_mul, mul_comm]
  · intro i _
    exact ((continuous_const.mul (Lagrange.basis (range n) s i).continuous)).intervalIntegrable _ _

end Newt.GLeg
