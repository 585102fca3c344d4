import Verif.Proofs.Q2Q
import Verif.Proofs.BodyFirst
import Mathlib.Analysis.SpecificLimits.Normed

/-! # Inner-to-outer and outer-to-outer translation of arbitrary bodies: truncation errors -/

namespace Newt

open Spec MeasureTheory

/-- The remainder factor of the truncated expansions. -/
noncomputable def remFac (l K : ℕ) (a D : ℝ) : ℝ :=
  (K + 1) * (2 * K + 3) ^ 2 * (2 * l + 2 * K + 3) ^ (l + 1) * ((a / D) ^ K * (a / (D - a) ^ (l + 2)))

theorem solidO_fO (l : ℕ) (m : ℤ) (v : V3) :
    solidO l m v = ((2 * l + 1 : ℂ) / (Nlm l m : ℂ)) * fO l m v := by
  have h1 : (Nlm l m : ℂ) ≠ 0 := by exact_mod_cast (Nlm_pos l m).ne'
  have h2 : (2 * (l : ℂ) + 1) ≠ 0 := by exact_mod_cast (by positivity : (2 * (l : ℝ) + 1) ≠ 0)
  rw [solidO, fO, solidS, map_mul, Complex.conj_ofReal]
  field_simp

theorem continuous_Rsol' (l : ℕ) (m : ℤ) : Continuous (Rsol l m) := by
  have h1 : (Nlm l m : ℂ) ≠ 0 := by exact_mod_cast (Nlm_pos l m).ne'
  have : Rsol l m = fun v => (Nlm l m : ℂ)⁻¹ * solidS l m v := by
    funext v; rw [solidS]; field_simp
  rw [this]
  exact continuous_const.mul (continuous_solidS l m)

theorem measurable_fO (l : ℕ) (m : ℤ) : Measurable (fO l m) := by
  unfold fO
  refine Measurable.const_mul ?_ _
  refine Measurable.div ?_ ?_
  · exact (Complex.continuous_conj.comp (continuous_Rsol' l m)).measurable
  · exact (Complex.continuous_ofReal.comp (modulus_continuous.pow _)).measurable

theorem measurable_solidO (l : ℕ) (m : ℤ) : Measurable (solidO l m) := by
  have : solidO l m = fun v => ((2 * l + 1 : ℂ) / (Nlm l m : ℂ)) * fO l m v := funext (solidO_fO l m)
  rw [this]
  exact (measurable_fO l m).const_mul _

theorem fO_integrable (mu : Measure V3) [IsFiniteMeasure mu] (l : ℕ) (m : ℤ) (f : V3 → V3)
    (hf : Continuous f) (c : ℝ) (hc : 0 < c) (h : ∀ᵐ v ∂mu, c ≤ modulus (f v)) :
    Integrable (fun v => fO l m (f v)) mu := by
  refine Integrable.of_bound ((measurable_fO l m).comp hf.measurable).aestronglyMeasurable
    (Nlm l m / c ^ (l + 1)) ?_
  filter_upwards [h] with v hv
  have h0 : f v ≠ 0 := by
    intro h0
    rw [h0, (modulus_eq_zero 0).2 rfl] at hv
    linarith
  refine (norm_fO_le l m _ h0).trans ?_
  have := (Nlm_pos l m).le
  gcongr

theorem norm_list_sum_sub_le {α : Type*} (b : List α) (f g : α → ℂ) (h : α → ℝ)
    (hp : ∀ p ∈ b, ‖f p - g p‖ ≤ h p) : ‖(b.map f).sum - (b.map g).sum‖ ≤ (b.map h).sum := by
  induction b with
  | nil => simp
  | cons p b ih =>
    simp only [List.map_cons, List.sum_cons]
    have h1 := hp p (by simp)
    have h2 := ih fun q hq => hp q (by simp [hq])
    calc ‖f p + (b.map f).sum - (g p + (b.map g).sum)‖ = ‖(f p - g p) + ((b.map f).sum - (b.map g).sum)‖ := by
          congr 1; ring
      _ ≤ _ := (norm_add_le _ _).trans (add_le_add h1 h2)

/-- Inner to outer, one piece. -/
theorem q2Q_piece (mu : Measure V3) [IsFiniteMeasure mu] (hint : ∀ k n, Integrable (Rsol k n) mu)
    (l : ℕ) (m : ℤ) (hm : m.natAbs ≤ l) (d : V3) (a : ℝ)
    (had : a < modulus d) (h : ∀ᵐ v ∂mu, modulus v ≤ a) (K : ℕ) :
    ‖(∑ k ∈ Finset.range (K + 1), ∑ n ∈ Finset.Icc (-(k : ℤ)) k,
        (-1) ^ k * fO (l + k) (m + n) d * ∫ v, Rsol k n v ∂mu) - ∫ v, fO l m (v + d) ∂mu‖ ≤
      remFac l K a (modulus d) * (mu Set.univ).toReal := by
  have hi : Integrable (fun v => fO l m (v + d)) mu := by
    refine fO_integrable mu l m _ (continuous_id.add continuous_const) (modulus d - a) (by linarith) ?_
    filter_upwards [h] with v hv
    have h1 := modulus_add_le (v + d) (-v)
    rw [add_neg_cancel_comm, modulus_neg] at h1
    linarith
  have e : (∑ k ∈ Finset.range (K + 1), ∑ n ∈ Finset.Icc (-(k : ℤ)) k,
        (-1) ^ k * fO (l + k) (m + n) d * ∫ v, Rsol k n v ∂mu)
      = ∫ v, ∑ k ∈ Finset.range (K + 1), (-1) ^ k * tayl l m v k d ∂mu := by
    have hk : ∀ k ∈ Finset.range (K + 1), Integrable (fun v => (-1) ^ k * tayl l m v k d) mu := by
      intro k _
      unfold tayl
      exact (integrable_finset_sum _ fun n _ => (hint k n).const_mul _).const_mul _
    rw [integral_finset_sum _ hk]
    refine Finset.sum_congr rfl fun k _ => ?_
    unfold tayl
    rw [integral_const_mul, integral_finset_sum _ fun n _ => (hint k n).const_mul _, Finset.mul_sum]
    refine Finset.sum_congr rfl fun n _ => ?_
    rw [integral_const_mul]; ring
  have hI : Integrable (fun v => ∑ k ∈ Finset.range (K + 1), (-1) ^ k * tayl l m v k d) mu := by
    refine integrable_finset_sum _ fun k _ => ?_
    unfold tayl
    exact (integrable_finset_sum _ fun n _ => (hint k n).const_mul _).const_mul _
  rw [e, ← integral_sub hI hi]
  refine norm_integral_le_of_norm_le_const ?_
  filter_upwards [h] with v hv
  rw [norm_sub_rev, add_comm v d]
  exact tayl_error l m hm d v a hv had K

theorem remFac_anti (l K : ℕ) {a D D' : ℝ} (ha : 0 ≤ a) (h : a < D) (h' : D ≤ D') : remFac l K a D' ≤ remFac l K a D := by
  unfold remFac
  have h1 : 0 < D := by linarith
  have h2 : 0 < D - a := by linarith
  have h3 : 0 < D' := by linarith
  have h4 : 0 < D' - a := by linarith
  gcongr

/-- Outer to outer, one piece. -/
theorem Q2Q_piece (mu : Measure V3) [IsFiniteMeasure mu]
    (l : ℕ) (m : ℤ) (hm : m.natAbs ≤ l) (d : V3) (a D : ℝ) (hd : modulus d ≤ a) (ha : a < D)
    (h : ∀ᵐ v ∂mu, D ≤ modulus v) (K : ℕ) :
    ‖(∑ j ∈ Finset.range (K + 1), ∑ n ∈ Finset.Icc (-(j : ℤ)) j,
        (-1) ^ j * Rsol j n d * ∫ v, fO (l + j) (m + n) v ∂mu) - ∫ v, fO l m (v + d) ∂mu‖ ≤
      remFac l K a D * (mu Set.univ).toReal := by
  have ha0 : 0 ≤ a := (modulus_nonneg d).trans hd
  have hint : ∀ k n, Integrable (fun v => fO k n v) mu := fun k n =>
    fO_integrable mu k n _ continuous_id D (by linarith) h
  have hi : Integrable (fun v => fO l m (v + d)) mu := by
    refine fO_integrable mu l m _ (continuous_id.add continuous_const) (D - a) (by linarith) ?_
    filter_upwards [h] with v hv
    have h1 := modulus_add_le (v + d) (-d)
    rw [add_neg_cancel_right, modulus_neg] at h1
    linarith
  have hk : ∀ k ∈ Finset.range (K + 1), Integrable (fun v => (-1) ^ k * tayl l m d k v) mu := by
    intro k _
    unfold tayl
    exact (integrable_finset_sum _ fun n _ => (hint _ _).mul_const _).const_mul _
  have e : (∑ j ∈ Finset.range (K + 1), ∑ n ∈ Finset.Icc (-(j : ℤ)) j,
        (-1) ^ j * Rsol j n d * ∫ v, fO (l + j) (m + n) v ∂mu)
      = ∫ v, ∑ k ∈ Finset.range (K + 1), (-1) ^ k * tayl l m d k v ∂mu := by
    rw [integral_finset_sum _ hk]
    refine Finset.sum_congr rfl fun k _ => ?_
    unfold tayl
    rw [integral_const_mul, integral_finset_sum _ fun n _ => (hint _ _).mul_const _, Finset.mul_sum]
    refine Finset.sum_congr rfl fun n _ => ?_
    rw [integral_mul_const]; ring
  have hI : Integrable (fun v => ∑ k ∈ Finset.range (K + 1), (-1) ^ k * tayl l m d k v) mu :=
    integrable_finset_sum _ hk
  rw [e, ← integral_sub hI hi]
  refine norm_integral_le_of_norm_le_const ?_
  filter_upwards [h] with v hv
  rw [norm_sub_rev]
  exact (tayl_error l m hm v d a hd (by linarith) K).trans (remFac_anti l K ha0 ha hv)

theorem InBall.ae {b : Body} {a : ℝ} (h : b.InBall a) : ∀ p ∈ b, ∀ᵐ v ∂p.mu, modulus v ≤ a := by
  intro p hp
  rw [ae_iff]
  simpa using h p hp

theorem OffBall.ae {b : Body} {a : ℝ} (h : b.OffBall a) : ∀ p ∈ b, ∀ᵐ v ∂p.mu, a ≤ modulus v := by
  intro p hp
  rw [ae_iff]
  simpa using h p hp

theorem outer_translate_eq (b : Body) (d : V3) (l : ℕ) (m : ℤ) :
    (b.translate d).outer l m = ((2 * l + 1 : ℂ) / (Nlm l m : ℂ)) *
      (b.map fun p => (p.rho : ℂ) * ∫ v, fO l m (v + d) ∂p.mu).sum := by
  rw [← List.sum_map_mul_left, Body.outer, Body.translate, List.map_map]
  congr 1
  refine List.map_congr_left fun p _ => ?_
  change (p.rho : ℂ) * ∫ v, solidO l m v ∂(p.mu.map fun v => v + d) = _
  rw [integral_map (φ := fun v : V3 => v + d) (continuous_id.add continuous_const).measurable.aemeasurable
    (measurable_solidO l m).aestronglyMeasurable]
  simp only [solidO_fO, integral_const_mul]
  ring

theorem outer_eq (b : Body) (l : ℕ) (m : ℤ) :
    b.outer l m = ((2 * l + 1 : ℂ) / (Nlm l m : ℂ)) *
      (b.map fun p => (p.rho : ℂ) * ∫ v, fO l m v ∂p.mu).sum := by
  rw [← List.sum_map_mul_left, Body.outer]
  congr 1
  refine List.map_congr_left fun p _ => ?_
  simp only [solidO_fO, integral_const_mul]
  ring

theorem outer_out (b : Body) (l : ℕ) (m : ℤ) (h : l < m.natAbs) : b.outer l m = 0 := by
  have e : ∀ v, solidO l m v = 0 := fun v => solidO_out l m v h
  simp [Body.outer, e]

theorem norm_pref (l : ℕ) (m : ℤ) : ‖((2 * l + 1 : ℂ) / (Nlm l m : ℂ))‖ = (2 * l + 1) / Nlm l m := by
  rw [show ((2 * l + 1 : ℂ) / (Nlm l m : ℂ)) = (((2 * l + 1) / Nlm l m : ℝ) : ℂ) by push_cast; rfl,
    Complex.norm_real, Real.norm_eq_abs, abs_of_nonneg]
  have := (Nlm_pos l m).le
  positivity

/-- Inner to outer, whole body. -/
theorem q2Q_error (L : ℕ) (b : Body) (d : V3) (a : ℝ) (had : a < modulus d) (hb : b.InBall a)
    (l : ℕ) (m : ℤ) (hm : m.natAbs ≤ l) :
    ‖trQ (Mom.ofFn L b.inner) d l m - (b.translate d).outer l m‖ ≤
      (2 * l + 1) / Nlm l m * (b.absMass * remFac l L a (modulus d)) := by
  have e : trQ (Mom.ofFn L b.inner) d l m = ((2 * l + 1 : ℂ) / (Nlm l m : ℂ)) *
      (b.map fun p => (p.rho : ℂ) * ∑ k ∈ Finset.range (L + 1), ∑ n ∈ Finset.Icc (-(k : ℤ)) k,
        (-1) ^ k * fO (l + k) (m + n) d * ∫ v, Rsol k n v ∂p.mu).sum := by
    rw [trQ, if_pos hm]
    congr 1
    simp only [Finset.mul_sum]
    rw [Body.list_sum_finset]
    refine Finset.sum_congr rfl fun k hk => ?_
    rw [Body.list_sum_finset]
    refine Finset.sum_congr rfl fun n hn => ?_
    rw [Finset.mem_range] at hk
    rw [Finset.mem_Icc] at hn
    rw [Mom.get_ofFn _ (by omega) (by omega), Body.inner]
    have hN : (Nlm k n : ℂ) ≠ 0 := by exact_mod_cast (Nlm_pos k n).ne'
    have : ∀ p : Piece, (p.rho : ℂ) * ((-1) ^ k * fO (l + k) (m + n) d * ∫ v, Rsol k n v ∂p.mu)
        = ((-1) ^ k * fO (l + k) (m + n) d / (Nlm k n : ℂ)) * ((p.rho : ℂ) * ∫ v, solidS k n v ∂p.mu) := by
      intro p
      simp only [solidS, integral_const_mul]
      field_simp
    simp only [this, List.sum_map_mul_left]
    ring
  rw [e, outer_translate_eq, ← mul_sub, norm_mul, norm_pref]
  refine mul_le_mul_of_nonneg_left ?_ (div_nonneg (by positivity) (Nlm_pos l m).le)
  rw [Body.absMass, ← List.sum_map_mul_right]
  refine norm_list_sum_sub_le _ _ _ _ fun p hp => ?_
  have := p.fin
  rw [← mul_sub, norm_mul, Complex.norm_real, Real.norm_eq_abs, mul_assoc]
  refine mul_le_mul_of_nonneg_left ?_ (abs_nonneg _)
  rw [mul_comm (ENNReal.toReal _)]
  exact q2Q_piece p.mu (fun k n => p.integrable (continuous_Rsol' k n)) l m hm d a had (InBall.ae hb p hp) L

/-- Outer to outer, whole body. -/
theorem Q2Q_error (L : ℕ) (b : Body) (d : V3) (a D : ℝ) (hd : modulus d ≤ a) (had : a < D) (hb : b.OffBall D)
    (l : ℕ) (hl : l ≤ L) (m : ℤ) (hm : m.natAbs ≤ l) :
    ‖trOuter (Mom.ofFn L b.outer) d l m - (b.translate d).outer l m‖ ≤
      (2 * l + 1) / Nlm l m * (b.absMass * remFac l (L - l) a D) := by
  have e : trOuter (Mom.ofFn L b.outer) d l m = ((2 * l + 1 : ℂ) / (Nlm l m : ℂ)) *
      (b.map fun p => (p.rho : ℂ) * ∑ j ∈ Finset.range (L - l + 1), ∑ n ∈ Finset.Icc (-(j : ℤ)) j,
        (-1) ^ j * Rsol j n d * ∫ v, fO (l + j) (m + n) v ∂p.mu).sum := by
    rw [trOuter, if_pos hm]
    congr 1
    simp only [Finset.mul_sum]
    rw [Body.list_sum_finset, ← Finset.Ico_add_one_right_eq_Icc, Finset.sum_Ico_eq_sum_range,
      show L + 1 - l = L - l + 1 by omega]
    refine Finset.sum_congr rfl fun j hj => ?_
    rw [Finset.mem_range] at hj
    rw [Body.list_sum_finset, Nat.add_sub_cancel_left]
    symm
    refine Finset.sum_of_injOn (fun n : ℤ => m + n) (fun _ _ _ _ h => by simpa using h) ?_ ?_ ?_
    · intro n hn
      simp only [Finset.coe_Icc, Set.mem_Icc] at hn ⊢
      push_cast; omega
    · intro n hn hnot
      rw [Rsol_out', zero_mul]
      by_contra hc
      apply hnot
      refine ⟨n - m, ?_, by ring⟩
      simp only [Finset.coe_Icc, Set.mem_Icc]
      omega
    · intro n hn
      rw [Finset.mem_Icc] at hn
      rw [Mom.get_ofFn _ (by omega) (by omega), outer_eq, Rsol_neg_arg, add_sub_cancel_left]
      have hN : (Nlm (l + j) (m + n) : ℂ) ≠ 0 := by exact_mod_cast (Nlm_pos _ _).ne'
      have h2 : (2 * ((l + j : ℕ) : ℂ) + 1) ≠ 0 := by
        exact_mod_cast (by positivity : (2 * ((l + j : ℕ) : ℝ) + 1) ≠ 0)
      have e1 : ∀ p : Piece, (p.rho : ℂ) * ((-1) ^ j * Rsol j n d * ∫ v, fO (l + j) (m + n) v ∂p.mu)
          = ((-1) ^ j * Rsol j n d) * ((p.rho : ℂ) * ∫ v, fO (l + j) (m + n) v ∂p.mu) := fun p => by ring
      simp only [e1, List.sum_map_mul_left]
      field_simp
  rw [e, outer_translate_eq, ← mul_sub, norm_mul, norm_pref]
  refine mul_le_mul_of_nonneg_left ?_ (div_nonneg (by positivity) (Nlm_pos l m).le)
  rw [Body.absMass, ← List.sum_map_mul_right]
  refine norm_list_sum_sub_le _ _ _ _ fun p hp => ?_
  have := p.fin
  rw [← mul_sub, norm_mul, Complex.norm_real, Real.norm_eq_abs, mul_assoc]
  refine mul_le_mul_of_nonneg_left ?_ (abs_nonneg _)
  rw [mul_comm (ENNReal.toReal _)]
  exact Q2Q_piece p.mu l m hm d a D hd had (OffBall.ae hb p hp) (L - l)

theorem remFac_tendsto (l : ℕ) {a D : ℝ} (ha : 0 ≤ a) (had : a < D) :
    Filter.Tendsto (fun K => remFac l K a D) Filter.atTop (nhds 0) := by
  have hD : 0 < D := by linarith
  have hr : 0 ≤ a / D := by positivity
  have hr1 : a / D < 1 := by rwa [div_lt_one hD]
  set C : ℝ := (a / (D - a) ^ (l + 2)) * ((2 * l + 5 : ℝ)) ^ (l + 4)
  have hC : 0 ≤ C := by
    have : 0 < D - a := by linarith
    positivity
  have hlim : Filter.Tendsto (fun K : ℕ => C * (((K + 1 : ℕ) : ℝ) ^ (l + 4) * (a / D) ^ K)) Filter.atTop (nhds 0) := by
    by_cases h0 : a / D = 0
    · rw [h0]
      refine tendsto_const_nhds.congr' ?_
      filter_upwards [Filter.eventually_ge_atTop 1] with K hK
      rw [zero_pow (by omega)]; ring
    · have h1 := tendsto_pow_const_mul_const_pow_of_abs_lt_one (l + 4) (r := a / D) (by rwa [abs_of_nonneg hr])
      have h2 := (h1.comp (Filter.tendsto_add_atTop_nat 1)).const_mul (C * (a / D)⁻¹)
      rw [mul_zero] at h2
      refine h2.congr fun K => ?_
      simp only [Function.comp_apply, pow_succ (a / D)]
      generalize a / D = r at h0
      field_simp
  refine squeeze_zero (fun K => ?_) (fun K => ?_) hlim
  · unfold remFac
    have : 0 < D - a := by linarith
    positivity
  · unfold remFac
    have hDa : 0 < D - a := by linarith
    have b1 : ((K : ℝ) + 1) ≤ (2 * l + 5) * ((K + 1 : ℕ) : ℝ) := by
      push_cast
      nlinarith [Nat.cast_nonneg (α := ℝ) l, Nat.cast_nonneg (α := ℝ) K, mul_nonneg (Nat.cast_nonneg (α := ℝ) l) (Nat.cast_nonneg (α := ℝ) K)]
    have b2 : (2 * (K : ℝ) + 3) ≤ (2 * l + 5) * ((K + 1 : ℕ) : ℝ) := by
      push_cast
      nlinarith [Nat.cast_nonneg (α := ℝ) l, Nat.cast_nonneg (α := ℝ) K, mul_nonneg (Nat.cast_nonneg (α := ℝ) l) (Nat.cast_nonneg (α := ℝ) K)]
    have b3 : (2 * (l : ℝ) + 2 * K + 3) ≤ (2 * l + 5) * ((K + 1 : ℕ) : ℝ) := by
      push_cast
      nlinarith [Nat.cast_nonneg (α := ℝ) l, Nat.cast_nonneg (α := ℝ) K, mul_nonneg (Nat.cast_nonneg (α := ℝ) l) (Nat.cast_nonneg (α := ℝ) K)]
    calc ((K : ℝ) + 1) * (2 * K + 3) ^ 2 * (2 * l + 2 * K + 3) ^ (l + 1) * ((a / D) ^ K * (a / (D - a) ^ (l + 2)))
        ≤ ((2 * l + 5) * ((K + 1 : ℕ) : ℝ)) * ((2 * l + 5) * ((K + 1 : ℕ) : ℝ)) ^ 2 *
          ((2 * l + 5) * ((K + 1 : ℕ) : ℝ)) ^ (l + 1) * ((a / D) ^ K * (a / (D - a) ^ (l + 2))) := by gcongr
      _ = C * (((K + 1 : ℕ) : ℝ) ^ (l + 4) * (a / D) ^ K) := by
        simp only [C, mul_pow]; ring

end Newt

namespace Newt.Spec.Body

open MeasureTheory

theorem outer_neg (b : Body) (l : ℕ) (m : ℤ) :
    b.outer l (-m) = (-1) ^ m.natAbs * (starRingEnd ℂ) (b.outer l m) := by
  induction b with
  | nil => simp [Body.outer]
  | cons p b ih =>
    have e : ∀ n, Body.outer (p :: b) l n = (p.rho : ℂ) * ∫ v, solidO l n v ∂p.mu + Body.outer b l n := fun n => rfl
    rw [e, e, ih, map_add, mul_add, map_mul, Complex.conj_ofReal, ← integral_conj]
    simp_rw [solidO_neg]
    rw [integral_const_mul]; ring

theorem outer_valid (L : ℕ) (b : Body) : Valid (Mom.ofFn L b.outer) :=
  valid_ofFn _ (fun l m _ _ => outer_neg b l m) (fun l m _ h => outer_out b l m h)

theorem outer_points (A : PtArray) (l : ℕ) (m : ℤ) : (Body.points A).outer l m = outerMoment A l m := by
  simp only [Body.outer, Body.points, outerMoment, List.map_map, Function.comp_def, Piece.point]
  simp

theorem translate_points (A : PtArray) (d : V3) (l : ℕ) (m : ℤ) :
    ((Body.points A).translate d).outer l m = outerMoment (translate_point_array A d) l m := by
  rw [outer_translate_eq, ← List.sum_map_mul_left, Body.points, outerMoment, translate_point_array, List.map_map,
    List.map_map]
  congr 1
  refine List.map_congr_left fun p _ => ?_
  simp only [Function.comp_apply, Piece.point, integral_dirac, solidO_fO, translate_point]
  ring

theorem points_inBall (A : PtArray) (a : ℝ) : (Body.points A).InBall a ↔ ∀ p ∈ A, modulus p.pos ≤ a := by
  have hm : MeasurableSet {v : V3 | a < modulus v} := (isOpen_lt continuous_const modulus_continuous).measurableSet
  simp only [Body.InBall, Body.points, List.forall_mem_map, Piece.point]
  refine forall₂_congr fun p _ => ?_
  rw [Measure.dirac_apply' _ hm]
  simp [Set.indicator]

theorem points_offBall (A : PtArray) (a : ℝ) : (Body.points A).OffBall a ↔ ∀ p ∈ A, a ≤ modulus p.pos := by
  have hm : MeasurableSet {v : V3 | modulus v < a} := (isOpen_lt modulus_continuous continuous_const).measurableSet
  simp only [Body.OffBall, Body.points, List.forall_mem_map, Piece.point]
  refine forall₂_congr fun p _ => ?_
  rw [Measure.dirac_apply' _ hm]
  simp [Set.indicator]

theorem absMass_points (A : PtArray) : (Body.points A).absMass = Spec.absMass A := by
  simp only [Body.absMass, Body.points, Spec.absMass, List.map_map, Function.comp_def, Piece.point]
  simp

theorem absMass_nonneg (b : Body) : 0 ≤ b.absMass := by
  unfold Body.absMass
  refine List.sum_nonneg ?_
  intro x hx
  rw [List.mem_map] at hx
  obtain ⟨p, _, rfl⟩ := hx
  positivity

end Newt.Spec.Body
