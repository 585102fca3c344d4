import Verif.Proofs.Force
import Mathlib.Analysis.Calculus.SmoothSeries
import Mathlib.Analysis.SpecificLimits.Normed
import Mathlib.Analysis.Calculus.MeanValue
import Mathlib.Analysis.SpecialFunctions.Sqrt

/-!
# Legendre polynomials in homogeneous form and their generating function
-/

namespace Newt

open Spec

/-- Homogeneous Legendre polynomial `r^l P_l(z/r)` as a function of `z` and `w = r^2`. -/
noncomputable def pz (z w : ℝ) : ℕ → ℝ
  | 0 => 1
  | 1 => z
  | l + 2 => ((2 * l + 3) * z * pz z w (l + 1) - (l + 1) * w * pz z w l) / (l + 2)

theorem pz_rec (z w : ℝ) (l : ℕ) :
    ((l : ℝ) + 2) * pz z w (l + 2) = (2 * l + 3) * z * pz z w (l + 1) - (l + 1) * w * pz z w l := by
  rw [pz]; have : (l : ℝ) + 2 ≠ 0 := by positivity
  field_simp

/-- Recurrence in the form used for summation. -/
theorem pz_rec' (z w : ℝ) (n : ℕ) :
    ((n : ℝ) + 1) * pz z w (n + 1) = (2 * n + 1) * z * pz z w n - n * w * pz z w (n - 1) := by
  rcases n with _ | n
  · simp [pz]
  · have := pz_rec z w n
    simp only [Nat.add_sub_cancel]
    push_cast
    linear_combination this

section gen

variable {z r : ℝ} (hb : ∀ l, |pz z (r ^ 2) l| ≤ r ^ l) (hr : 0 ≤ r)
include hb hr

theorem pz_summable {t : ℝ} (ht : |t| * r < 1) : Summable fun l : ℕ => pz z (r ^ 2) l * t ^ l := by
  apply Summable.of_norm_bounded (g := fun l : ℕ => (|t| * r) ^ l)
    (summable_geometric_of_lt_one (by positivity) ht)
  intro l
  rw [norm_mul, norm_pow, Real.norm_eq_abs, Real.norm_eq_abs, mul_pow, mul_comm]
  gcongr
  exact hb l

theorem pz_summable_n {t : ℝ} (ht : |t| * r < 1) :
    Summable fun l : ℕ => (l : ℝ) * (pz z (r ^ 2) l * t ^ l) := by
  have h := summable_pow_mul_geometric_of_norm_lt_one 1 (r := |t| * r)
    (by rw [Real.norm_eq_abs, abs_of_nonneg (by positivity)]; exact ht)
  apply Summable.of_norm_bounded (g := fun l : ℕ => (l : ℝ) ^ 1 * (|t| * r) ^ l) h
  intro l
  rw [norm_mul, norm_mul, norm_pow, Real.norm_eq_abs, Real.norm_eq_abs, Real.norm_eq_abs, mul_pow, pow_one,
    abs_of_nonneg (Nat.cast_nonneg l), mul_comm (|t| ^ l)]
  gcongr
  exact hb l

theorem pz_bound_deriv {s t : ℝ} (hs : |s| < t) (l : ℕ) :
    ‖(l : ℝ) * pz z (r ^ 2) l * s ^ (l - 1)‖ ≤ (l : ℝ) * r ^ l * t ^ (l - 1) := by
  rw [norm_mul, norm_mul, norm_pow, Real.norm_eq_abs, Real.norm_eq_abs, Real.norm_eq_abs,
    abs_of_nonneg (Nat.cast_nonneg l)]
  gcongr
  exact hb l

theorem summable_deriv_bound {t : ℝ} (ht0 : 0 < t) (ht : t * r < 1) :
    Summable fun l : ℕ => (l : ℝ) * r ^ l * t ^ (l - 1) := by
  have h := summable_pow_mul_geometric_of_norm_lt_one 1 (r := t * r)
    (by rw [Real.norm_eq_abs, abs_of_nonneg (by positivity)]; exact ht)
  refine (h.mul_left t⁻¹).congr ?_
  intro l
  rcases l with _ | l
  · simp
  · rw [Nat.add_sub_cancel, mul_pow, pow_succ t l]
    field_simp

theorem gen_deriv {s t : ℝ} (hs : |s| < t) (ht : t * r < 1) :
    HasDerivAt (fun x => ∑' l : ℕ, pz z (r ^ 2) l * x ^ l)
      (∑' l : ℕ, (l : ℝ) * pz z (r ^ 2) l * s ^ (l - 1)) s := by
  have ht0 : 0 < t := lt_of_le_of_lt (abs_nonneg s) hs
  refine hasDerivAt_tsum_of_isPreconnected (𝕜 := ℝ) (t := Metric.ball (0 : ℝ) t) (y₀ := 0)
    (g := fun l x => pz z (r ^ 2) l * x ^ l)
    (g' := fun l x => (l : ℝ) * pz z (r ^ 2) l * x ^ (l - 1))
    (summable_deriv_bound hb hr ht0 ht) Metric.isOpen_ball (convex_ball _ _).isPreconnected ?_ ?_ ?_ ?_ ?_
  · intro n y _
    refine ((hasDerivAt_pow n y).const_mul _).congr_deriv ?_
    ring
  · intro n y hy
    rw [Metric.mem_ball, dist_zero_right, Real.norm_eq_abs] at hy
    exact pz_bound_deriv hb hr hy n
  · simpa using ht0
  · exact pz_summable hb hr (by simp)
  · rw [Metric.mem_ball, dist_zero_right, Real.norm_eq_abs]; exact hs

theorem gen_ode {s : ℝ} (hs : |s| * r < 1) :
    (1 - 2 * z * s + r ^ 2 * s ^ 2) * ∑' l : ℕ, (l : ℝ) * pz z (r ^ 2) l * s ^ (l - 1) =
      (z - r ^ 2 * s) * ∑' l : ℕ, pz z (r ^ 2) l * s ^ l := by
  set p := pz z (r ^ 2) with hp
  have hS : HasSum (fun l : ℕ => p l * s ^ l) (∑' l : ℕ, p l * s ^ l) := (pz_summable hb hr hs).hasSum
  set S := ∑' l : ℕ, p l * s ^ l
  have hT : Summable fun l : ℕ => (l : ℝ) * (p l * s ^ l) := pz_summable_n hb hr hs
  have hT' := hT.hasSum
  set T := ∑' l : ℕ, (l : ℝ) * (p l * s ^ l)
  -- the derivative series
  obtain ⟨t, hst, ht⟩ : ∃ t, |s| < t ∧ t * r < 1 := by
    rcases hr.eq_or_lt with h | h
    · exact ⟨|s| + 1, by linarith, by rw [← h]; simp⟩
    · refine ⟨(|s| + 1 / r) / 2, ?_, ?_⟩
      · have : |s| < 1 / r := by rwa [lt_div_iff₀ h]
        linarith
      · have : r⁻¹ * r = 1 := inv_mul_cancel₀ h.ne'
        rw [one_div]; nlinarith
  have hWs : Summable fun l : ℕ => (l : ℝ) * p l * s ^ (l - 1) :=
    Summable.of_norm_bounded (summable_deriv_bound hb hr (lt_of_le_of_lt (abs_nonneg s) hst) ht)
      (pz_bound_deriv hb hr hst)
  have hW := hWs.hasSum
  set W := ∑' l : ℕ, (l : ℝ) * p l * s ^ (l - 1)
  have hTW : T = s * W := by
    refine hT'.unique ((hW.mul_left s).congr_fun ?_)
    intro l
    rcases l with _ | l
    · simp
    · simp only [Nat.add_sub_cancel]; rw [pow_succ]; ring
  have hW1 : HasSum (fun n : ℕ => ((n : ℝ) + 1) * p (n + 1) * s ^ n) W := by
    have := (hasSum_nat_add_iff' 1).2 hW
    simpa using this
  have hlow : HasSum (fun n : ℕ => (n : ℝ) * p (n - 1) * s ^ (n - 1)) (T + S) := by
    have : HasSum (fun n : ℕ => ((n + 1 : ℕ) : ℝ) * p n * s ^ n) (T + S) := by
      refine (hT'.add hS).congr_fun ?_
      intro n; push_cast; ring
    have h2 := (hasSum_nat_add_iff (f := fun n : ℕ => (n : ℝ) * p (n - 1) * s ^ (n - 1)) 1).1 (by simpa using this)
    simpa using h2
  have key : HasSum (fun n : ℕ => ((n : ℝ) + 1) * p (n + 1) * s ^ n)
      (2 * z * T + z * S - r ^ 2 * s * (T + S)) := by
    refine (((hT'.mul_left (2 * z)).add (hS.mul_left z)).sub (hlow.mul_left (r ^ 2 * s))).congr_fun ?_
    intro n
    have h := pz_rec' z (r ^ 2) n
    rw [← hp] at h
    rcases n with _ | n
    · simp at h ⊢; rw [h]
    · simp only [Nat.add_sub_cancel] at h ⊢
      rw [h, pow_succ]; ring
  have := hW1.unique key
  rw [hTW] at this
  linear_combination this

omit hb in
theorem gen_disc_pos (hz : |z| ≤ r) {s : ℝ} (hs : |s| * r < 1) : 0 < 1 - 2 * z * s + r ^ 2 * s ^ 2 := by
  have h1 : |z * s| < 1 := by
    rw [abs_mul, mul_comm]
    exact lt_of_le_of_lt (mul_le_mul_of_nonneg_left hz (abs_nonneg s)) hs
  have h2 : 0 < 1 - z * s := by linarith [(abs_lt.1 h1).2]
  have h3 : z ^ 2 ≤ r ^ 2 := sq_le_sq' (by linarith [(abs_le.1 hz).1]) (abs_le.1 hz).2
  nlinarith [mul_nonneg (sub_nonneg.2 h3) (sq_nonneg s), pow_pos h2 2]

/-- The generating function of the Legendre polynomials. -/
theorem legendre_gen (hz : |z| ≤ r) {s : ℝ} (hs : |s| * r < 1) :
    HasSum (fun l : ℕ => pz z (r ^ 2) l * s ^ l) (1 / Real.sqrt (1 - 2 * z * s + r ^ 2 * s ^ 2)) := by
  obtain ⟨t, hst, ht⟩ : ∃ t, |s| < t ∧ t * r < 1 := by
    rcases hr.eq_or_lt with h | h
    · exact ⟨|s| + 1, by linarith, by rw [← h]; simp⟩
    · refine ⟨(|s| + 1 / r) / 2, ?_, ?_⟩
      · have : |s| < 1 / r := by rwa [lt_div_iff₀ h]
        linarith
      · have : r⁻¹ * r = 1 := inv_mul_cancel₀ h.ne'
        rw [one_div]; nlinarith
  have ht0 : 0 < t := lt_of_le_of_lt (abs_nonneg s) hst
  have hcond : ∀ x ∈ Metric.ball (0 : ℝ) t, |x| * r < 1 := by
    intro x hx
    rw [Metric.mem_ball, dist_zero_right, Real.norm_eq_abs] at hx
    exact lt_of_le_of_lt (mul_le_mul_of_nonneg_right hx.le hr) ht
  have hd : ∀ x ∈ Metric.ball (0 : ℝ) t, HasDerivAt
      (fun x => (∑' l : ℕ, pz z (r ^ 2) l * x ^ l) * Real.sqrt (1 - 2 * z * x + r ^ 2 * x ^ 2)) 0 x := by
    intro x hx
    have hx' : |x| < t := by rwa [Metric.mem_ball, dist_zero_right, Real.norm_eq_abs] at hx
    have hpos := gen_disc_pos hr hz (hcond x hx)
    have h1 := gen_deriv hb hr hx' ht
    have h2 : HasDerivAt (fun x : ℝ => 1 - 2 * z * x + r ^ 2 * x ^ 2) (-(2 * z) + r ^ 2 * (2 * x)) x := by
      have := (((hasDerivAt_id x).const_mul (2 * z)).const_sub 1).add ((hasDerivAt_pow 2 x).const_mul (r ^ 2))
      refine this.congr_deriv ?_
      simp
    refine (h1.mul (h2.sqrt hpos.ne')).congr_deriv ?_
    have hsq := Real.sq_sqrt hpos.le
    have hs0 : Real.sqrt (1 - 2 * z * x + r ^ 2 * x ^ 2) ≠ 0 := (Real.sqrt_pos.2 hpos).ne'
    have hode := gen_ode hb hr (hcond x hx)
    field_simp
    rw [hsq]
    linear_combination hode
  have hconst : ∀ x ∈ Metric.ball (0 : ℝ) t, (∑' l : ℕ, pz z (r ^ 2) l * x ^ l) *
      Real.sqrt (1 - 2 * z * x + r ^ 2 * x ^ 2) = 1 := by
    intro x hx
    have := Metric.isOpen_ball.is_const_of_deriv_eq_zero (convex_ball (0 : ℝ) t).isPreconnected
      (fun y hy => (hd y hy).differentiableAt.differentiableWithinAt) (fun y hy => (hd y hy).deriv) hx
      (by simpa using ht0 : (0 : ℝ) ∈ Metric.ball (0 : ℝ) t)
    rw [this]
    have h0 : (∑' l : ℕ, pz z (r ^ 2) l * (0 : ℝ) ^ l) = 1 := by
      rw [tsum_eq_single 0]
      · simp [pz]
      · intro l hl; simp [hl]
    rw [h0]; simp
  have hmem : s ∈ Metric.ball (0 : ℝ) t := by rwa [Metric.mem_ball, dist_zero_right, Real.norm_eq_abs]
  have h := hconst s hmem
  have hpos := gen_disc_pos hr hz (hcond s hmem)
  have : 1 / Real.sqrt (1 - 2 * z * s + r ^ 2 * s ^ 2) = ∑' l : ℕ, pz z (r ^ 2) l * s ^ l := by
    rw [div_eq_iff (Real.sqrt_pos.2 hpos).ne', h]
  rw [this]
  exact (pz_summable hb hr (hcond s hmem)).hasSum

end gen

end Newt
