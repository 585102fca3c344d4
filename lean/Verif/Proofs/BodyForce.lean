import Verif.Props.ForceConv
import Verif.Proofs.BipolarBody
import Mathlib.Analysis.Calculus.ParametricIntegral

/-! # Forces and torques between arbitrary bodies: derivatives of the expansion -/

namespace Newt

open Spec MeasureTheory

/-- A mass distribution carried along a family of curves `c x`, with velocities `c' x` and the
corresponding derivatives `dS` of the solid harmonics. -/
structure Moving (mu : Measure V3) (c c' : V3 → ℝ → V3) (dS : ℕ → ℤ → V3 → ℝ → ℂ) (t0 δ a V K : ℝ) : Prop where
  pos : 0 < δ
  a0 : 0 ≤ a
  cont : ∀ t, Continuous fun x => c x t
  cont' : ∀ t, Continuous fun x => c' x t
  contS : ∀ l m t, Continuous fun x => dS l m x t
  inside : ∀ᵐ x ∂mu, ∀ t, |t - t0| < δ → modulus (c x t) ≤ a
  der : ∀ x t, HasDerivAt (c x) (c' x t) t
  derb : ∀ᵐ x ∂mu, ∀ t, |t - t0| < δ → modulus (c' x t) ≤ V
  derS : ∀ l m x t, HasDerivAt (fun t => solidS l m (c x t)) (dS l m x t) t
  derSb : ∀ᵐ x ∂mu, ∀ l m t, m.natAbs ≤ l → |t - t0| < δ → ‖dS l m x t‖ ≤ K * (l * (2 * l + 1)) * a ^ l

variable {mu nu : Measure V3} {c c' : V3 → ℝ → V3} {dS : ℕ → ℤ → V3 → ℝ → ℂ} {t0 δ a V K : ℝ}

theorem near_mem {t0 δ t : ℝ} (h : |t - t0| < δ) : {s : ℝ | |s - t0| < δ} ∈ nhds t := by
  have : {s : ℝ | |s - t0| < δ} = Metric.ball t0 δ := by
    ext s; rw [Metric.mem_ball, Real.dist_eq]; rfl
  rw [this]
  exact Metric.isOpen_ball.mem_nhds (by rw [Metric.mem_ball, Real.dist_eq]; exact h)

theorem Moving.momInt [IsFiniteMeasure mu] (h : Moving mu c c' dS t0 δ a V K) (l : ℕ) (m : ℤ) (t : ℝ)
    (ht : |t - t0| < δ) : Integrable (fun x => solidS l m (c x t)) mu := by
  refine Integrable.of_bound (C := (2 * l + 1) * a ^ l)
    ((continuous_solidS l m).comp (h.cont t)).aestronglyMeasurable ?_
  filter_upwards [h.inside] with x hx
  refine (norm_solidS_le l m _).trans ?_
  have := modulus_nonneg (c x t)
  have := hx t ht
  gcongr

theorem Moving.momNorm [IsFiniteMeasure mu] (h : Moving mu c c' dS t0 δ a V K) (l : ℕ) (m : ℤ) (t : ℝ)
    (ht : |t - t0| < δ) :
    ‖∫ x, solidS l m (c x t) ∂mu‖ ≤ (2 * l + 1) * a ^ l * (mu Set.univ).toReal := by
  refine norm_integral_le_of_norm_le_const ?_
  filter_upwards [h.inside] with x hx
  refine (norm_solidS_le l m _).trans ?_
  have := modulus_nonneg (c x t)
  have := hx t ht
  gcongr

theorem Moving.momDeriv [IsFiniteMeasure mu] (h : Moving mu c c' dS t0 δ a V K) (l : ℕ) (m : ℤ)
    (hm : m.natAbs ≤ l) (t : ℝ) (ht : |t - t0| < δ) :
    HasDerivAt (fun s => ∫ x, solidS l m (c x s) ∂mu) (∫ x, dS l m x t ∂mu) t := by
  refine (hasDerivAt_integral_of_dominated_loc_of_deriv_le (F := fun s x => solidS l m (c x s))
    (F' := fun s x => dS l m x s) (bound := fun _ => K * (l * (2 * l + 1)) * a ^ l) (near_mem ht)
    (Filter.Eventually.of_forall fun s => ((continuous_solidS l m).comp (h.cont s)).aestronglyMeasurable)
    (h.momInt l m t ht) (h.contS l m t).aestronglyMeasurable ?_ (integrable_const _) ?_).2
  · filter_upwards [h.derSb] with x hx s hs
    exact hx l m s hm hs
  · exact Filter.Eventually.of_forall fun x s _ => h.derS l m x s

theorem Moving.momDNorm [IsFiniteMeasure mu] (h : Moving mu c c' dS t0 δ a V K) (l : ℕ) (m : ℤ)
    (hm : m.natAbs ≤ l) (t : ℝ) (ht : |t - t0| < δ) :
    ‖∫ x, dS l m x t ∂mu‖ ≤ K * (l * (2 * l + 1)) * a ^ l * (mu Set.univ).toReal := by
  refine norm_integral_le_of_norm_le_const ?_
  filter_upwards [h.derSb] with x hx
  exact hx l m t hm ht

theorem outNorm [IsFiniteMeasure nu] (l : ℕ) (m : ℤ) (D : ℝ) (hD : 0 < D) (h : ∀ᵐ v ∂nu, D ≤ modulus v) :
    ‖∫ y, solidO l m y ∂nu‖ ≤ (2 * l + 1) / D ^ (l + 1) * (nu Set.univ).toReal := by
  refine norm_integral_le_of_norm_le_const ?_
  filter_upwards [h] with y hy
  have hy0 : y ≠ 0 := by
    intro h0
    rw [h0, (modulus_eq_zero 0).2 rfl] at hy
    linarith
  refine (norm_solidO_le l m y hy0).trans ?_
  gcongr

/-- The degree-`l` term of the expansion of the pair energy (without the factor `-G`). -/
noncomputable def etm (mu nu : Measure V3) (c : V3 → ℝ → V3) (l : ℕ) (t : ℝ) : ℂ :=
  ((4 * Real.pi : ℝ) : ℂ) * ∑ m ∈ Finset.Icc (-(l : ℤ)) l,
    (∫ x, solidS l m (c x t) ∂mu) * (∫ y, solidO l m y ∂nu) / (2 * l + 1)

noncomputable def etm' (mu nu : Measure V3) (dS : ℕ → ℤ → V3 → ℝ → ℂ) (l : ℕ) (t : ℝ) : ℂ :=
  ((4 * Real.pi : ℝ) : ℂ) * ∑ m ∈ Finset.Icc (-(l : ℤ)) l,
    (∫ x, dS l m x t ∂mu) * (∫ y, solidO l m y ∂nu) / (2 * l + 1)

theorem Moving.etm_deriv [IsFiniteMeasure mu] (h : Moving mu c c' dS t0 δ a V K) (l : ℕ) (t : ℝ)
    (ht : |t - t0| < δ) : HasDerivAt (etm mu nu c l) (etm' mu nu dS l t) t := by
  unfold etm etm'
  apply HasDerivAt.const_mul
  apply HasDerivAt.fun_sum
  intro m hm
  rw [Finset.mem_Icc] at hm
  exact ((h.momDeriv l m (by omega) t ht).mul_const _).div_const _

theorem etm_bound (f : ℤ → ℂ) (l : ℕ) (B D N : ℝ) (hD : 0 < D) (hB : 0 ≤ B) (hN : 0 ≤ N)
    (hf : ∀ m : ℤ, m.natAbs ≤ l → ‖f m‖ ≤ B) (g : ℤ → ℂ)
    (hg : ∀ m, ‖g m‖ ≤ (2 * l + 1) / D ^ (l + 1) * N) :
    ‖((4 * Real.pi : ℝ) : ℂ) * ∑ m ∈ Finset.Icc (-(l : ℤ)) l, f m * g m / (2 * l + 1)‖ ≤
      4 * Real.pi * (2 * l + 1) * (B * N / D ^ (l + 1)) := by
  rw [norm_mul, Complex.norm_real, Real.norm_eq_abs, abs_of_pos (by positivity)]
  have h3 : ‖(2 * l + 1 : ℂ)‖ = 2 * l + 1 := by
    have : (2 * l + 1 : ℂ) = ((2 * l + 1 : ℕ) : ℂ) := by push_cast; ring
    rw [this, Complex.norm_natCast]; push_cast; ring
  have h1 : ‖∑ m ∈ Finset.Icc (-(l : ℤ)) l, f m * g m / (2 * l + 1)‖ ≤
      ∑ m ∈ Finset.Icc (-(l : ℤ)) l, B * N / D ^ (l + 1) := by
    refine (norm_sum_le _ _).trans (Finset.sum_le_sum fun m hm => ?_)
    rw [Finset.mem_Icc] at hm
    rw [norm_div, norm_mul, h3]
    calc ‖f m‖ * ‖g m‖ / (2 * l + 1) ≤ B * ((2 * l + 1) / D ^ (l + 1) * N) / (2 * l + 1) := by
          gcongr
          · exact hf m (by omega)
          · exact hg m
      _ = _ := by field_simp
  rw [Finset.sum_const, Int.card_Icc, show ((l : ℤ) + 1 - -(l : ℤ)).toNat = 2 * l + 1 by omega,
    nsmul_eq_mul] at h1
  push_cast at h1
  calc 4 * Real.pi * _ ≤ 4 * Real.pi * ((2 * l + 1) * (B * N / D ^ (l + 1))) := by gcongr
    _ = _ := by ring

theorem poly_geo (ρ : ℝ) (h0 : 0 ≤ ρ) (h1 : ρ < 1) (C : ℝ) :
    Summable fun l : ℕ => C * ((l : ℝ) * (2 * l + 1) * (2 * l + 1) * ρ ^ l) := by
  have hρ : ‖ρ‖ < 1 := by rwa [Real.norm_eq_abs, abs_of_nonneg h0]
  have := ((((summable_pow_mul_geometric_of_norm_lt_one 3 hρ).mul_right 4).add
      ((summable_pow_mul_geometric_of_norm_lt_one 2 hρ).mul_right 4)).add
      (summable_pow_mul_geometric_of_norm_lt_one 1 hρ)).mul_left C
  refine this.congr fun l => ?_
  ring

theorem poly_geo' (ρ : ℝ) (h0 : 0 ≤ ρ) (h1 : ρ < 1) (C : ℝ) :
    Summable fun l : ℕ => C * ((2 * (l : ℝ) + 1) * (2 * l + 1) * ρ ^ l) := by
  have hρ : ‖ρ‖ < 1 := by rwa [Real.norm_eq_abs, abs_of_nonneg h0]
  have := ((((summable_pow_mul_geometric_of_norm_lt_one 2 hρ).mul_right 4).add
      ((summable_pow_mul_geometric_of_norm_lt_one 1 hρ).mul_right 4)).add
      (summable_pow_mul_geometric_of_norm_lt_one 0 hρ)).mul_left C
  refine this.congr fun l => ?_
  ring

/-- The truncated pair energies converge to the exact pair energy. -/
theorem Moving.etm_hasSum [IsFiniteMeasure mu] [IsFiniteMeasure nu] (h : Moving mu c c' dS t0 δ a V K) (D : ℝ)
    (haD : a < D) (hnu : ∀ᵐ v ∂nu, D ≤ modulus v) (t : ℝ) (ht : |t - t0| < δ) :
    HasSum (fun l => etm mu nu c l t) ((∫ x, ∫ y, 1 / modulus (y - c x t) ∂nu ∂mu : ℝ) : ℂ) := by
  have hD : 0 < D := lt_of_le_of_lt h.a0 haD
  have hsum : Summable fun l => etm mu nu c l t := by
    refine Summable.of_norm_bounded (poly_geo' (a / D) (by have := h.a0; positivity) (by rwa [div_lt_one hD])
      (4 * Real.pi * (mu Set.univ).toReal * (nu Set.univ).toReal / D)) fun l => ?_
    refine (etm_bound (fun m => ∫ x, solidS l m (c x t) ∂mu) l _ D (nu Set.univ).toReal hD
      (by have := h.a0; positivity) (by positivity)
      (fun m _ => h.momNorm l m t ht) (fun m => ∫ y, solidO l m y ∂nu) fun m => outNorm l m D hD hnu).trans (le_of_eq ?_)
    rw [div_pow, pow_succ]
    field_simp
  refine (hsum.hasSum_iff_tendsto_nat).2 ?_
  rw [← Filter.tendsto_add_atTop_iff_nat 1]
  rw [tendsto_iff_norm_sub_tendsto_zero]
  have h1 : Filter.Tendsto (fun L : ℕ => (a / D) ^ (L + 1)) Filter.atTop (nhds 0) :=
    (tendsto_pow_atTop_nhds_zero_of_lt_one (by have := h.a0; positivity) (by rwa [div_lt_one hD])).comp
      (Filter.tendsto_add_atTop_nat 1)
  have h2 := ((h1.div_const (D - a)).mul_const (nu Set.univ).toReal).mul_const (mu Set.univ).toReal
  rw [zero_div, zero_mul, zero_mul] at h2
  refine squeeze_zero (fun L => norm_nonneg _) (fun L => ?_) h2
  have hc := (h.cont t).measurable
  have hfin : IsFiniteMeasure (mu.map fun x => c x t) := inferInstance
  have hin : ∀ᵐ v ∂(mu.map fun x => c x t), modulus v ≤ a := by
    rw [ae_map_iff hc.aemeasurable (isClosed_le modulus_continuous continuous_const).measurableSet]
    filter_upwards [h.inside] with x hx
    exact hx t ht
  have hS : ∀ l m, Integrable (solidS l m) (mu.map fun x => c x t) := by
    intro l m
    rw [integrable_map_measure (continuous_solidS l m).aestronglyMeasurable hc.aemeasurable]
    exact h.momInt l m t ht
  have key := pair_energy (mu.map fun x => c x t) nu hS L a D haD h.a0 hin hnu
  rw [Measure.map_apply hc MeasurableSet.univ, Set.preimage_univ] at key
  have e1 : ∀ l m, ∫ v, solidS l m v ∂(mu.map fun x => c x t) = ∫ x, solidS l m (c x t) ∂mu := fun l m =>
    integral_map hc.aemeasurable (continuous_solidS l m).aestronglyMeasurable
  have e2 : ∫ x, ∫ y, 1 / modulus (y - x) ∂nu ∂(mu.map fun x => c x t) =
      ∫ x, ∫ y, 1 / modulus (y - c x t) ∂nu ∂mu := by
    rw [integral_map hc.aemeasurable]
    apply StronglyMeasurable.aestronglyMeasurable
    refine StronglyMeasurable.integral_prod_right (f := fun x y : V3 => 1 / modulus (y - x)) ?_
    apply Measurable.stronglyMeasurable
    apply Measurable.div measurable_const
    exact (modulus_continuous.comp (continuous_snd.sub continuous_fst)).measurable
  simp only [e1, e2] at key
  simp only [etm]
  rw [← Finset.mul_sum]
  exact key

/-- The derivative of the exact pair energy along the motion. -/
theorem Moving.exact_deriv [IsFiniteMeasure mu] [IsFiniteMeasure nu] (h : Moving mu c c' dS t0 δ a V K) (D : ℝ)
    (haD : a < D) (hnu : ∀ᵐ v ∂nu, D ≤ modulus v) :
    HasDerivAt (fun t => ∫ x, ∫ y, 1 / modulus (y - c x t) ∂nu ∂mu)
      (∫ x, ∫ y, ((y - c x t0) ⬝ᵥ c' x t0) / modulus (y - c x t0) ^ 3 ∂nu ∂mu) t0 := by
  have hDa : 0 < D - a := by linarith
  have hm1 : Measurable fun p : V3 × V3 => p.1 := measurable_fst
  have ae1 : ∀ᵐ p ∂(mu.prod nu), (∀ t, |t - t0| < δ → modulus (c p.1 t) ≤ a) ∧
      (∀ t, |t - t0| < δ → modulus (c' p.1 t) ≤ V) ∧ D ≤ modulus p.2 := by
    have h1 := (Measure.quasiMeasurePreserving_fst (μ := mu) (ν := nu)).ae (h.inside.and h.derb)
    have h2 := (Measure.quasiMeasurePreserving_snd (μ := mu) (ν := nu)).ae hnu
    filter_upwards [h1, h2] with p hp hq
    exact ⟨hp.1, hp.2, hq⟩
  have hlow : ∀ x y : V3, modulus x ≤ a → D ≤ modulus y → D - a ≤ modulus (y - x) := by
    intro x y hx hy
    have h1 := modulus_add_le (y - x) x
    rw [sub_add_cancel] at h1
    linarith
  have hcont : ∀ t, Continuous fun p : V3 × V3 => p.2 - c p.1 t := fun t =>
    continuous_snd.sub ((h.cont t).comp continuous_fst)
  have hmeas : ∀ t, Measurable fun p : V3 × V3 => 1 / modulus (p.2 - c p.1 t) := fun t =>
    Measurable.div measurable_const (modulus_continuous.comp (hcont t)).measurable
  have hint : ∀ t, |t - t0| < δ → Integrable (fun p : V3 × V3 => 1 / modulus (p.2 - c p.1 t)) (mu.prod nu) := by
    intro t ht
    refine Integrable.of_bound (C := 1 / (D - a)) (hmeas t).aestronglyMeasurable ?_
    filter_upwards [ae1] with p hp
    have h2 := hlow _ _ (hp.1 t ht) hp.2.2
    rw [Real.norm_eq_abs, abs_of_nonneg (by have := modulus_nonneg (p.2 - c p.1 t); positivity)]
    gcongr
  have hdot : ∀ t, Measurable fun p : V3 × V3 => ((p.2 - c p.1 t) ⬝ᵥ c' p.1 t) / modulus (p.2 - c p.1 t) ^ 3 := by
    intro t
    apply Measurable.div
    · have h1 := hcont t
      have h2 : Continuous fun p : V3 × V3 => c' p.1 t := (h.cont' t).comp continuous_fst
      exact (h1.dotProduct h2).measurable
    · exact ((modulus_continuous.comp (hcont t)).pow 3).measurable
  have hbd : ∀ᵐ p ∂(mu.prod nu), ∀ t ∈ {t : ℝ | |t - t0| < δ},
      ‖((p.2 - c p.1 t) ⬝ᵥ c' p.1 t) / modulus (p.2 - c p.1 t) ^ 3‖ ≤ V / (D - a) ^ 2 := by
    filter_upwards [ae1] with p hp t ht
    have h2 := hlow _ _ (hp.1 t ht) hp.2.2
    have h3 := hp.2.1 t ht
    have h4 := abs_dot_le (p.2 - c p.1 t) (c' p.1 t)
    set r := modulus (p.2 - c p.1 t)
    have hr : 0 < r := by linarith
    have hV : 0 ≤ modulus (c' p.1 t) := modulus_nonneg _
    rw [Real.norm_eq_abs, abs_div, abs_of_pos (pow_pos hr 3), div_le_div_iff₀ (by positivity) (by positivity)]
    calc |(p.2 - c p.1 t) ⬝ᵥ c' p.1 t| * (D - a) ^ 2 ≤ (r * V) * r ^ 2 := by
          refine mul_le_mul (h4.trans (by gcongr)) (by gcongr) (by positivity) (by have := hV.trans h3; positivity)
      _ = V * r ^ 3 := by ring
  have key := hasDerivAt_integral_of_dominated_loc_of_deriv_le (μ := mu.prod nu)
    (F := fun t p => 1 / modulus (p.2 - c p.1 t))
    (F' := fun t p => ((p.2 - c p.1 t) ⬝ᵥ c' p.1 t) / modulus (p.2 - c p.1 t) ^ 3)
    (bound := fun _ => V / (D - a) ^ 2) (near_mem (t0 := t0) (δ := δ) (t := t0) (by simpa using h.pos))
    (Filter.Eventually.of_forall fun t => (hmeas t).aestronglyMeasurable)
    (hint t0 (by simpa using h.pos)) (hdot t0).aestronglyMeasurable hbd (integrable_const _) (by
      filter_upwards [ae1] with p hp t ht
      have h2 := hlow _ _ (hp.1 t ht) hp.2.2
      have hne : c p.1 t ≠ p.2 := by
        intro h0
        rw [h0, sub_self, (modulus_eq_zero 0).2 rfl] at h2
        linarith
      have h5 := inv_dist_deriv (c p.1) (c' p.1 t) t (h.der p.1 t) p.2 hne
      refine (h5.congr_of_eventuallyEq (Filter.Eventually.of_forall fun s => ?_)).congr_deriv ?_
      · simp only []
        rw [← modulus_neg (p.2 - c p.1 s)]
        simp [dist3, modulus, Fin.sum_univ_three]
      · ring)
  have e2 : ∫ p : V3 × V3, ((p.2 - c p.1 t0) ⬝ᵥ c' p.1 t0) / modulus (p.2 - c p.1 t0) ^ 3 ∂(mu.prod nu) =
      ∫ x, ∫ y, ((y - c x t0) ⬝ᵥ c' x t0) / modulus (y - c x t0) ^ 3 ∂nu ∂mu := integral_prod _ key.1
  rw [e2] at key
  refine key.2.congr_of_eventuallyEq ?_
  filter_upwards [near_mem (t0 := t0) (δ := δ) (t := t0) (by simpa using h.pos)] with t ht
  exact (integral_prod _ (hint t ht)).symm

/-- Term-by-term differentiation. -/
theorem Moving.conv [IsFiniteMeasure mu] [IsFiniteMeasure nu] (h : Moving mu c c' dS t0 δ a V K) (D : ℝ)
    (haD : a < D) (hnu : ∀ᵐ v ∂nu, D ≤ modulus v) :
    HasSum (fun l => (etm' mu nu dS l t0).re)
      (∫ x, ∫ y, ((y - c x t0) ⬝ᵥ c' x t0) / modulus (y - c x t0) ^ 3 ∂nu ∂mu) := by
  have hD : 0 < D := lt_of_le_of_lt h.a0 haD
  have h0 : |t0 - t0| < δ := by simpa using h.pos
  have hball : ∀ t, t ∈ Metric.ball t0 δ ↔ |t - t0| < δ := by
    intro t; rw [Metric.mem_ball, Real.dist_eq]
  have hsumm := poly_geo (a / D) (by have := h.a0; positivity) (by rwa [div_lt_one hD])
    (4 * Real.pi * |K| * (mu Set.univ).toReal * (nu Set.univ).toReal / D)
  have hbound : ∀ l t, |t - t0| < δ → ‖(etm' mu nu dS l t).re‖ ≤
      4 * Real.pi * |K| * (mu Set.univ).toReal * (nu Set.univ).toReal / D *
        ((l : ℝ) * (2 * l + 1) * (2 * l + 1) * (a / D) ^ l) := by
    intro l t ht
    rw [Real.norm_eq_abs]
    refine (Complex.abs_re_le_norm _).trans ?_
    refine (etm_bound (fun m => ∫ x, dS l m x t ∂mu) l
      (|K| * (l * (2 * l + 1)) * a ^ l * (mu Set.univ).toReal) D (nu Set.univ).toReal hD
      (by have := h.a0; positivity) (by positivity)
      (fun m hm => (h.momDNorm l m hm t ht).trans ?_) (fun m => ∫ y, solidO l m y ∂nu)
      fun m => outNorm l m D hD hnu).trans (le_of_eq ?_)
    · have := h.a0
      gcongr
      exact le_abs_self K
    · rw [div_pow, pow_succ]
      field_simp
  have hsum : ∀ t, |t - t0| < δ → HasSum (fun l => (etm mu nu c l t).re)
      (∫ x, ∫ y, 1 / modulus (y - c x t) ∂nu ∂mu) := fun t ht => by
    have := Complex.hasSum_re (h.etm_hasSum D haD hnu t ht)
    simpa using this
  have hd := hasDerivAt_tsum_of_isPreconnected (𝕜 := ℝ) (t := Metric.ball t0 δ) (y₀ := t0) (y := t0)
    (g := fun l t => (etm mu nu c l t).re) (g' := fun l t => (etm' mu nu dS l t).re) hsumm
    Metric.isOpen_ball (convex_ball _ _).isPreconnected
    (fun l t ht => hasDerivAt_re (h.etm_deriv l t ((hball t).1 ht))) (fun l t ht => hbound l t ((hball t).1 ht))
    ((hball t0).2 h0) (hsum t0 h0).summable ((hball t0).2 h0)
  have heq : (fun t => ∑' l, (etm mu nu c l t).re) =ᶠ[nhds t0]
      fun t => ∫ x, ∫ y, 1 / modulus (y - c x t) ∂nu ∂mu := by
    filter_upwards [near_mem (t0 := t0) (δ := δ) (t := t0) h0] with t ht
    exact (hsum t ht).tsum_eq
  have huniq := (hd.congr_of_eventuallyEq heq.symm).unique (h.exact_deriv D haD hnu)
  rw [← huniq]
  exact (Summable.of_norm_bounded hsumm fun l => hbound l t0 h0).hasSum

end Newt
