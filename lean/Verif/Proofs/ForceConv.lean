import Verif.Props.Convergence

/-!
# Convergence of the derivatives of the multipole expansion
-/

namespace Newt

open Spec

/-- The degree-`l` term of the expansion of `1/|x-y|`. -/
noncomputable def tm (l : ℕ) (x y : V3) : ℝ :=
  pz ((x ⬝ᵥ y) / modulus y) (modulus x ^ 2) l * (1 / modulus y) ^ l / modulus y

theorem tm_eq (l : ℕ) (x y : V3) (hy : y ≠ 0) :
    (tm l x y : ℂ) = 4 * Real.pi * ∑ m ∈ Finset.Icc (-(l : ℤ)) l, solidS l m x * solidO l m y / (2 * l + 1) := by
  rw [term_eq l x y hy, tm]
  have hpi : (Real.pi : ℂ) ≠ 0 := by exact_mod_cast Real.pi_ne_zero
  push_cast
  field_simp

theorem crude_sqrt (l : ℕ) : (2 * (l : ℝ) + 1) / (4 * Real.pi) ≤ (2 * l + 1) ^ 2 := by
  have := Real.pi_gt_three
  rw [div_le_iff₀ (by positivity)]
  have h1 : (1 : ℝ) ≤ 2 * l + 1 := by have := Nat.cast_nonneg (α := ℝ) l; linarith
  nlinarith

theorem norm_solidS_le (l : ℕ) (m : ℤ) (x : V3) : ‖solidS l m x‖ ≤ (2 * l + 1) * modulus x ^ l := by
  by_cases hm : m.natAbs ≤ l
  · have h := norm_solidS_sq_le l m hm x
    have hx : 0 ≤ modulus x := Real.sqrt_nonneg _
    apply le_of_sq_le_sq _ (by positivity)
    rw [mul_pow, ← pow_mul, mul_comm l 2]
    exact h.trans (mul_le_mul_of_nonneg_right (crude_sqrt l) (by positivity))
  · rw [solidS_out _ _ _ (by omega), norm_zero]
    have hx : 0 ≤ modulus x := Real.sqrt_nonneg _
    positivity
where
  le_of_sq_le_sq {a b : ℝ} (h : a ^ 2 ≤ b ^ 2) (hb : 0 ≤ b) : a ≤ b := (abs_le_of_sq_le_sq' h hb).2

theorem norm_solidO_le (l : ℕ) (m : ℤ) (y : V3) (hy : y ≠ 0) :
    ‖solidO l m y‖ ≤ (2 * l + 1) / modulus y ^ (l + 1) := by
  have hm : 0 < modulus y := lt_of_le_of_ne (Real.sqrt_nonneg _) (Ne.symm fun h => hy ((modulus_eq_zero y).1 h))
  rw [solidO, norm_div, RCLike.norm_conj, Complex.norm_real, Real.norm_eq_abs, abs_of_pos (by positivity)]
  rw [div_le_div_iff₀ (by positivity) (by positivity)]
  calc ‖solidS l m y‖ * modulus y ^ (l + 1) ≤ (2 * l + 1) * modulus y ^ l * modulus y ^ (l + 1) := by
        gcongr; exact norm_solidS_le l m y
    _ = (2 * l + 1) * modulus y ^ (2 * l + 1) := by ring

/-- Term-by-term differentiation of the expansion of `1/|c(t)-y|` along a curve. -/
theorem conv_deriv (c : ℝ → V3) (y : V3) (t0 δ C a : ℝ) (hδ : 0 < δ) (ha : 0 ≤ a) (hay : a < modulus y)
    (dS : ℕ → ℤ → ℝ → ℂ)
    (hS : ∀ l m t, m.natAbs ≤ l → |t - t0| < δ → HasDerivAt (fun t => solidS l m (c t)) (dS l m t) t)
    (hD : ∀ l m t, m.natAbs ≤ l → |t - t0| < δ → ‖dS l m t‖ ≤ C * (l * (2 * l + 1)) * a ^ l)
    (hc : ∀ t, |t - t0| < δ → modulus (c t) ≤ a)
    (e : ℝ) (hE : HasDerivAt (fun t => 1 / dist3 (c t) y) e t0) :
    ∃ T : ℕ → ℝ, (∀ l, HasDerivAt (fun t => tm l (c t) y) (T l) t0) ∧ HasSum T e := by
  have hm : 0 < modulus y := lt_of_le_of_lt ha hay
  have hy : y ≠ 0 := fun h => hm.ne' ((modulus_eq_zero y).2 h)
  set T : ℕ → ℝ → ℝ := fun l t =>
    ((4 * Real.pi : ℂ) * ∑ m ∈ Finset.Icc (-(l : ℤ)) l, dS l m t * solidO l m y / (2 * l + 1)).re with hT
  have hder : ∀ l t, |t - t0| < δ → HasDerivAt (fun t => tm l (c t) y) (T l t) t := by
    intro l t ht
    have h1 : HasDerivAt (fun t => (4 * Real.pi : ℂ) * ∑ m ∈ Finset.Icc (-(l : ℤ)) l,
        solidS l m (c t) * solidO l m y / (2 * l + 1))
        ((4 * Real.pi : ℂ) * ∑ m ∈ Finset.Icc (-(l : ℤ)) l, dS l m t * solidO l m y / (2 * l + 1)) t := by
      apply HasDerivAt.const_mul
      apply HasDerivAt.fun_sum
      intro m hm
      rw [Finset.mem_Icc] at hm
      exact ((hS l m t (by omega) ht).mul_const _).div_const _
    have h2 := hasDerivAt_re h1
    refine h2.congr_of_eventuallyEq (Filter.Eventually.of_forall fun s => ?_)
    simp only []
    rw [← tm_eq l (c s) y hy, Complex.ofReal_re]
  have hbound : ∀ l t, |t - t0| < δ → ‖T l t‖ ≤
      4 * Real.pi * |C| / modulus y * ((l : ℝ) ^ 3 * (a / modulus y) ^ l * 4 + (l : ℝ) ^ 2 * (a / modulus y) ^ l * 4 +
        (l : ℝ) ^ 1 * (a / modulus y) ^ l) := by
    intro l t ht
    have h1 : ‖T l t‖ ≤ 4 * Real.pi * ∑ m ∈ Finset.Icc (-(l : ℤ)) l,
        (|C| * (l * (2 * l + 1)) * a ^ l) * ((2 * l + 1) / modulus y ^ (l + 1)) / (2 * l + 1) := by
      rw [hT, Real.norm_eq_abs]
      refine (Complex.abs_re_le_norm _).trans ?_
      rw [norm_mul]
      have : ‖(4 * Real.pi : ℂ)‖ = 4 * Real.pi := by
        rw [norm_mul, Complex.norm_real, Real.norm_eq_abs, abs_of_pos Real.pi_pos]; simp
      rw [this]
      gcongr
      refine (norm_sum_le _ _).trans (Finset.sum_le_sum fun m hm => ?_)
      rw [Finset.mem_Icc] at hm
      rw [norm_div, norm_mul]
      have h3 : ‖(2 * l + 1 : ℂ)‖ = 2 * l + 1 := by
        have : (2 * l + 1 : ℂ) = ((2 * l + 1 : ℕ) : ℂ) := by push_cast; ring
        rw [this, Complex.norm_natCast]; push_cast; ring
      rw [h3]
      have h4 : ‖dS l m t‖ ≤ |C| * (l * (2 * l + 1)) * a ^ l :=
        (hD l m t (by omega) ht).trans (by gcongr; exact le_abs_self C)
      have h5 := norm_solidO_le l m y hy
      gcongr
    refine h1.trans (le_of_eq ?_)
    rw [Finset.sum_const, Int.card_Icc]
    rw [show ((l : ℤ) + 1 - -(l : ℤ)).toNat = 2 * l + 1 by omega, nsmul_eq_mul]
    push_cast
    rw [div_pow, pow_succ]
    field_simp
    ring
  have hρ : ‖a / modulus y‖ < 1 := by
    rw [Real.norm_eq_abs, abs_of_nonneg (by positivity), div_lt_one hm]; exact hay
  have hsumm : Summable fun l : ℕ => 4 * Real.pi * |C| / modulus y *
      ((l : ℝ) ^ 3 * (a / modulus y) ^ l * 4 + (l : ℝ) ^ 2 * (a / modulus y) ^ l * 4 +
        (l : ℝ) ^ 1 * (a / modulus y) ^ l) :=
    ((((summable_pow_mul_geometric_of_norm_lt_one 3 hρ).mul_right 4).add
      ((summable_pow_mul_geometric_of_norm_lt_one 2 hρ).mul_right 4)).add
      (summable_pow_mul_geometric_of_norm_lt_one 1 hρ)).mul_left _
  have h0 : |t0 - t0| < δ := by simpa using hδ
  have hball : ∀ t, t ∈ Metric.ball t0 δ ↔ |t - t0| < δ := by
    intro t; rw [Metric.mem_ball, Real.dist_eq]
  have hsum : ∀ t, |t - t0| < δ → HasSum (fun l => tm l (c t) y) (1 / dist3 (c t) y) := fun t ht =>
    laplace_hasSum (c t) y (lt_of_le_of_lt (hc t ht) hay)
  have hd := hasDerivAt_tsum_of_isPreconnected (𝕜 := ℝ) (t := Metric.ball t0 δ) (y₀ := t0) (y := t0)
    (g := fun l t => tm l (c t) y) (g' := T) hsumm Metric.isOpen_ball (convex_ball _ _).isPreconnected
    (fun l t ht => hder l t ((hball t).1 ht)) (fun l t ht => hbound l t ((hball t).1 ht))
    ((hball t0).2 h0) (hsum t0 h0).summable ((hball t0).2 h0)
  have heq : (fun t => ∑' l, tm l (c t) y) =ᶠ[nhds t0] fun t => 1 / dist3 (c t) y := by
    filter_upwards [Metric.ball_mem_nhds t0 hδ] with t ht
    exact (hsum t ((hball t).1 ht)).tsum_eq
  have huniq := (hd.congr_of_eventuallyEq heq.symm).unique hE
  refine ⟨fun l => T l t0, fun l => hder l t0 h0, ?_⟩
  rw [← huniq]
  exact (Summable.of_norm_bounded hsumm fun l => hbound l t0 h0).hasSum

/-- Derivative of the solid harmonics along a line, at the start. -/
theorem Rsol_dir_zero (l : ℕ) (m : ℤ) (x e : V3) :
    HasDerivAt (fun t : ℝ => Rsol l m (x + t • e))
      (if l = 0 then 0 else ∑ a ∈ Finset.Icc (-1 : ℤ) 1, Rsol 1 a e * Rsol (l - 1) (m - a) x) 0 := by
  have h1 : (fun t : ℝ => Rsol l m (x + t • e)) = fun t : ℝ => ∑ p ∈ Finset.range (l + 1),
      ∑ a ∈ Finset.Icc (-(p : ℤ)) p, (t : ℂ) ^ p * (Rsol p a e * Rsol (l - p) (m - a) x) := by
    funext t
    rw [add_comm, Rsol_add]
    apply Finset.sum_congr rfl; intro p _
    apply Finset.sum_congr rfl; intro a _
    rw [Rsol_smul]; ring
  have h2 : HasDerivAt (fun t : ℝ => ∑ p ∈ Finset.range (l + 1),
      ∑ a ∈ Finset.Icc (-(p : ℤ)) p, (t : ℂ) ^ p * (Rsol p a e * Rsol (l - p) (m - a) x))
      (∑ p ∈ Finset.range (l + 1), ∑ a ∈ Finset.Icc (-(p : ℤ)) p,
        ((p : ℂ) * ((0 : ℝ) : ℂ) ^ (p - 1) * 1) * (Rsol p a e * Rsol (l - p) (m - a) x)) 0 := by
    apply HasDerivAt.fun_sum; intro p _
    apply HasDerivAt.fun_sum; intro a _
    exact ((ofReal_deriv 0).pow p).mul_const _
  rw [h1]
  refine h2.congr_deriv ?_
  split_ifs with h
  · subst h; simp
  · rw [Finset.sum_eq_single 1]
    · simp
    · intro p _ hp
      apply Finset.sum_eq_zero
      intro a _
      rcases p with _ | p
      · simp
      · have : p ≠ 0 := by omega
        simp [this]
    · intro hn; simp at hn; omega

theorem Rsol_dir (l : ℕ) (m : ℤ) (x e : V3) (t : ℝ) :
    HasDerivAt (fun t : ℝ => Rsol l m (x + t • e))
      (if l = 0 then 0 else ∑ a ∈ Finset.Icc (-1 : ℤ) 1, Rsol 1 a e * Rsol (l - 1) (m - a) (x + t • e)) t := by
  have h := Rsol_dir_zero l m (x + t • e) e
  have h2 : HasDerivAt (fun s : ℝ => s - t) 1 t := (hasDerivAt_id t).sub_const t
  have h3 := HasDerivAt.scomp (h := fun s : ℝ => s - t) t (by simpa using h) h2
  rw [one_smul] at h3
  refine h3.congr_of_eventuallyEq (Filter.Eventually.of_forall fun s => ?_)
  simp only [Function.comp]
  congr 1
  rw [sub_smul]; abel

theorem fact_ratio (n j K : ℕ) (hj : j ≤ 2) (hK : n + j ≤ K) (hK1 : 1 ≤ K) :
    (((n + j).factorial : ℕ) : ℝ) ≤ (n.factorial : ℝ) * (K : ℝ) ^ j := by
  have hK' : (1 : ℝ) ≤ K := by exact_mod_cast hK1
  have hnj : ((n + j : ℕ) : ℝ) ≤ K := by exact_mod_cast hK
  push_cast at hnj
  interval_cases j
  · simp
  · rw [Nat.factorial_succ]; push_cast
    rw [pow_one, mul_comm]
    gcongr
    simpa using hnj
  · rw [show n + 2 = (n + 1) + 1 from rfl, Nat.factorial_succ, Nat.factorial_succ]; push_cast
    have h0 : (0 : ℝ) ≤ n := Nat.cast_nonneg n
    have h1 : (0 : ℝ) < n.factorial := by exact_mod_cast n.factorial_pos
    have h2 : (n : ℝ) + 1 + 1 ≤ K := by push_cast at hnj; linarith
    have h3 : (n : ℝ) + 1 ≤ K := by linarith
    calc ((n : ℝ) + 1 + 1) * ((n + 1) * n.factorial) ≤ K * (K * n.factorial) := by gcongr
      _ = _ := by ring

theorem Nlm_ratio (l : ℕ) (hl : l ≠ 0) (m a : ℤ) (hm : m.natAbs ≤ l) (ha : a.natAbs ≤ 1)
    (hma : (m - a).natAbs ≤ l - 1) : Nlm l m ≤ 4 * l * Nlm (l - 1) (m - a) := by
  have hp := Real.pi_pos
  have hl1 : (1 : ℝ) ≤ l := by exact_mod_cast Nat.one_le_iff_ne_zero.2 hl
  apply Real.sqrt_le_iff.2
  have hN := Nlm_pos (l - 1) (m - a)
  refine ⟨by positivity, ?_⟩
  rw [mul_pow, Nlm, Real.sq_sqrt (by positivity)]
  obtain ⟨j, hj⟩ : ∃ j : ℕ, (1 + a) = j := ⟨(1 + a).toNat, by omega⟩
  obtain ⟨k, hk⟩ : ∃ k : ℕ, (1 - a) = k := ⟨(1 - a).toNat, by omega⟩
  have f1 := fact_ratio (((l - 1 : ℕ) : ℤ) + (m - a)).toNat j (2 * l) (by omega) (by omega) (by omega)
  have f2 := fact_ratio (((l - 1 : ℕ) : ℤ) - (m - a)).toNat k (2 * l) (by omega) (by omega) (by omega)
  rw [show (((l - 1 : ℕ) : ℤ) + (m - a)).toNat + j = ((l : ℤ) + m).toNat by omega] at f1
  rw [show (((l - 1 : ℕ) : ℤ) - (m - a)).toNat + k = ((l : ℤ) - m).toNat by omega] at f2
  set P := (((l - 1 : ℕ) : ℤ) + (m - a)).toNat.factorial
  set R := (((l - 1 : ℕ) : ℤ) - (m - a)).toNat.factorial
  have hprod := mul_le_mul f1 f2 (by positivity) (by positivity)
  have hjk : j + k = 2 := by omega
  have e : (P : ℝ) * ((2 * l : ℕ) : ℝ) ^ j * ((R : ℝ) * ((2 * l : ℕ) : ℝ) ^ k) = P * R * (4 * l ^ 2) := by
    have : ((2 * l : ℕ) : ℝ) ^ j * ((2 * l : ℕ) : ℝ) ^ k = 4 * l ^ 2 := by
      rw [← pow_add, hjk]; push_cast; ring
    linear_combination (P : ℝ) * R * this
  rw [e] at hprod
  have hcast : ((l - 1 : ℕ) : ℝ) = l - 1 := by rw [Nat.cast_sub (by omega)]; simp
  rw [hcast]
  calc (2 * (l : ℝ) + 1) / (4 * Real.pi) * (((l : ℤ) + m).toNat.factorial * ((l : ℤ) - m).toNat.factorial)
      ≤ (2 * (l : ℝ) + 1) / (4 * Real.pi) * (P * R * (4 * l ^ 2)) := by gcongr
    _ ≤ (4 * l) ^ 2 * ((2 * (l - 1) + 1) / (4 * Real.pi) * (P * R)) := by
      rw [div_mul_eq_mul_div, div_mul_eq_mul_div, mul_div_assoc', div_le_div_iff_of_pos_right (by positivity)]
      have hPR : (0 : ℝ) ≤ P * R := by positivity
      have : 0 ≤ (P * R : ℝ) * l ^ 2 * (6 * l - 5) := by
        have : (0 : ℝ) ≤ 6 * l - 5 := by linarith
        positivity
      nlinarith

/-- The derivative of a normalised solid harmonic in the direction `e`. -/
noncomputable def dSdir (e : V3) (l : ℕ) (m : ℤ) (v : V3) : ℂ :=
  Nlm l m * (if l = 0 then 0 else ∑ a ∈ Finset.Icc (-1 : ℤ) 1, Rsol 1 a e * Rsol (l - 1) (m - a) v)

/-- Derivative of the normalised solid harmonics along a line, with a bound. -/
theorem solidS_dir' (e : V3) : ∃ K : ℝ, 0 ≤ K ∧ ∀ x : V3,
    (∀ l m (t : ℝ), HasDerivAt (fun t : ℝ => solidS l m (x + t • e)) (dSdir e l m (x + t • e)) t) ∧
    ∀ l m (t a : ℝ), m.natAbs ≤ l → 0 < a → modulus (x + t • e) ≤ a →
      ‖dSdir e l m (x + t • e)‖ ≤ (K / a) * (l * (2 * l + 1)) * a ^ l := by
  unfold dSdir
  refine ⟨4 * ∑ a ∈ Finset.Icc (-1 : ℤ) 1, ‖Rsol 1 a e‖, by positivity, fun x => ⟨?_, ?_⟩⟩
  · intro l m t
    exact (Rsol_dir l m x e t).const_mul _
  · intro l m t a hm ha hx
    have hx0 : 0 ≤ modulus (x + t • e) := Real.sqrt_nonneg _
    rcases Nat.eq_zero_or_pos l with h | h
    · subst h; simp
    · simp only [Nat.ne_of_gt h, if_false]
      rw [Finset.mul_sum]
      refine (norm_sum_le _ _).trans ?_
      have hterm : ∀ c ∈ Finset.Icc (-1 : ℤ) 1, ‖(Nlm l m : ℂ) * (Rsol 1 c e * Rsol (l - 1) (m - c) (x + t • e))‖ ≤
          ‖Rsol 1 c e‖ * (4 / a * (l * (2 * l + 1)) * a ^ l) := by
        intro c hc
        rw [Finset.mem_Icc] at hc
        by_cases hmc : (m - c).natAbs ≤ l - 1
        · have h1 := Nlm_ratio l (by omega) m c hm (by omega) hmc
          have h2 := norm_solidS_le (l - 1) (m - c) (x + t • e)
          rw [solidS, norm_mul, Complex.norm_real, Real.norm_eq_abs, abs_of_pos (Nlm_pos _ _)] at h2
          rw [norm_mul, norm_mul, Complex.norm_real, Real.norm_eq_abs, abs_of_pos (Nlm_pos _ _)]
          have hcast : ((l - 1 : ℕ) : ℝ) = l - 1 := by rw [Nat.cast_sub (by omega)]; simp
          rw [hcast] at h2
          have hl1 : (1 : ℝ) ≤ l := by exact_mod_cast h
          calc Nlm l m * (‖Rsol 1 c e‖ * ‖Rsol (l - 1) (m - c) (x + t • e)‖)
              = ‖Rsol 1 c e‖ * (Nlm l m * ‖Rsol (l - 1) (m - c) (x + t • e)‖) := by ring
            _ ≤ ‖Rsol 1 c e‖ * ((4 * l * Nlm (l - 1) (m - c)) * ‖Rsol (l - 1) (m - c) (x + t • e)‖) := by gcongr
            _ = ‖Rsol 1 c e‖ * (4 * l * (Nlm (l - 1) (m - c) * ‖Rsol (l - 1) (m - c) (x + t • e)‖)) := by ring
            _ ≤ ‖Rsol 1 c e‖ * (4 * l * ((2 * (l - 1) + 1) * modulus (x + t • e) ^ (l - 1))) := by gcongr
            _ ≤ ‖Rsol 1 c e‖ * (4 * l * ((2 * l + 1) * a ^ (l - 1))) := by
                gcongr
                linarith
            _ = _ := by
                obtain ⟨k, rfl⟩ : ∃ k, l = k + 1 := ⟨l - 1, by omega⟩
                rw [Nat.add_sub_cancel, pow_succ]
                field_simp
        · rw [Rsol_out' (l - 1) (m - c) _ (by omega)]
          simp only [mul_zero, norm_zero]
          positivity
      refine (Finset.sum_le_sum hterm).trans (le_of_eq ?_)
      rw [← Finset.sum_mul]
      ring

/-- The same with the derivative bound to an existential. -/
theorem solidS_dir (x e : V3) : ∃ (dS : ℕ → ℤ → ℝ → ℂ) (K : ℝ), 0 ≤ K ∧
    (∀ l m t, HasDerivAt (fun t : ℝ => solidS l m (x + t • e)) (dS l m t) t) ∧
    ∀ l m t a, m.natAbs ≤ l → 0 < a → modulus (x + t • e) ≤ a →
      ‖dS l m t‖ ≤ (K / a) * (l * (2 * l + 1)) * a ^ l := by
  obtain ⟨K, hK, h⟩ := solidS_dir' e
  exact ⟨fun l m t => dSdir e l m (x + t • e), K, hK, (h x).1, (h x).2⟩

end Newt
