import Verif.Spec.Random
import Verif.Spec.Approx
import Mathlib.Probability.StrongLaw
import Mathlib.Topology.ContinuousMap.SecondCountableSpace
import Mathlib.Topology.ContinuousMap.Compact
import Mathlib.Topology.TietzeExtension

/-!
# Arrays of independently drawn points track their distribution, almost surely
-/

namespace Newt

open MeasureTheory Filter Topology Spec ProbabilityTheory

/-- Countably many continuous functions are enough to recognise that arrays track a body. -/
theorem exists_tests (K : Set V3) (hK : IsCompact K) :
    ∃ φ : ℕ → V3 → ℝ, (∀ j, Continuous (φ j)) ∧ (∀ j, ∃ C, ∀ v, |φ j v| ≤ C) ∧
      ∀ {ι : Type} (F : Filter ι) (A : ι → PtArray) (b : Body), (∀ᶠ n in F, Inside (A n) K) →
        (∃ C : ℝ, ∀ᶠ n in F, ((A n).map fun p => |p.mass|).sum ≤ C) → (∀ p ∈ b, p.mu Kᶜ = 0) →
        (∀ j, Tendsto (fun n => ((A n).map fun p => p.mass * φ j p.pos).sum) F (𝓝 (b.sumOver (φ j)))) →
        Tracks F A b K := by
  have : CompactSpace K := isCompact_iff_compactSpace.1 hK
  let d : ℕ → C(K, ℝ) := TopologicalSpace.denseSeq C(K, ℝ)
  have hd : DenseRange d := TopologicalSpace.denseRange_denseSeq _
  have hex : ∀ j, ∃ g : BoundedContinuousFunction V3 ℝ, ‖g‖ = ‖BoundedContinuousFunction.mkOfCompact (d j)‖ ∧
      ∀ v : K, g v = d j v := by
    intro j
    obtain ⟨g, h1, h2⟩ := (BoundedContinuousFunction.mkOfCompact (d j)).exists_norm_eq_domRestrict_eq_of_closed hK.isClosed
    exact ⟨g, h1, fun v => by rw [← BoundedContinuousFunction.mkOfCompact_apply (d j), ← h2]; rfl⟩
  choose g hg1 hg2 using hex
  refine ⟨fun j => g j, fun j => (g j).continuous, fun j => ⟨‖g j‖, fun v => (g j).norm_coe_le_norm v⟩, ?_⟩
  intro ι F A b hin hbd hsup ht
  obtain ⟨C, hC⟩ := hbd
  refine ⟨hin, ⟨C, hC⟩, hsup, fun f hf => ?_⟩
  let fK : C(K, ℝ) := ⟨K.domRestrict f, hf.domRestrict⟩
  rw [Metric.tendsto_nhds]
  intro ε hε
  set W : ℝ := max C 0 + b.absMass + 1 with hW
  have hbm : 0 ≤ b.absMass := by
    unfold Body.absMass
    refine List.sum_nonneg fun x hx => ?_
    obtain ⟨p, hp, rfl⟩ := List.mem_map.1 hx
    positivity
  have hWpos : 0 < W := by have := le_max_right C 0; linarith
  obtain ⟨j, hj⟩ := hd.exists_dist_lt fK (show 0 < ε / (3 * W) by positivity)
  have hclose : ∀ v ∈ K, |f v - g j v| ≤ ε / (3 * W) := by
    intro v hv
    have h1 := (ContinuousMap.dist_apply_le_dist (f := fK) (g := d j) ⟨v, hv⟩).trans hj.le
    rw [Real.dist_eq] at h1
    have := hg2 j ⟨v, hv⟩
    simp only at this
    rw [this]; exact h1
  have hδ : ε / (3 * W) * W = ε / 3 := by field_simp
  have hδ0 : 0 < ε / (3 * W) := by positivity
  -- the body
  have hb : |b.sumOver f - b.sumOver (g j)| ≤ ε / 3 := by
    have key : ∀ b : Body, (∀ p ∈ b, p.mu Kᶜ = 0) → |b.sumOver f - b.sumOver (g j)| ≤ ε / (3 * W) * b.absMass := by
      intro b
      induction b with
      | nil => intro _; simp [Body.sumOver, Body.absMass]
      | cons p b ih =>
        intro h
        have ih' := ih fun q hq => h q (List.mem_cons_of_mem _ hq)
        have hp := h p List.mem_cons_self
        have := p.fin
        have hae : ∀ᵐ v ∂p.mu, v ∈ K := by rw [ae_iff]; exact hp
        have hres : p.mu.restrict K = p.mu := Measure.restrict_eq_self_of_ae_mem hae
        have hfi : Integrable f p.mu := by
          rw [← hres]; exact hf.integrableOn_compact hK
        have hgi : Integrable (g j) p.mu := by
          rw [← hres]; exact (g j).continuous.continuousOn.integrableOn_compact hK
        have h1 : |∫ v, f v ∂p.mu - ∫ v, g j v ∂p.mu| ≤ ε / (3 * W) * (p.mu Set.univ).toReal := by
          rw [← integral_sub hfi hgi]
          exact norm_integral_le_of_norm_le_const (f := fun v => f v - g j v) (hae.mono fun v hv => hclose v hv)
        simp only [Body.sumOver, Body.absMass, List.map_cons, List.sum_cons] at ih' ⊢
        have e : ∀ a x y s t : ℝ, a * x + s - (a * y + t) = a * (x - y) + (s - t) := by intros; ring
        rw [e]
        refine (abs_add_le _ _).trans ?_
        rw [abs_mul, mul_add]
        refine add_le_add ?_ ih'
        calc |p.rho| * _ ≤ |p.rho| * (ε / (3 * W) * (p.mu Set.univ).toReal) := by gcongr
          _ = _ := by ring
    refine (key b hsup).trans ?_
    rw [← hδ]
    have := le_max_right C 0
    gcongr
    linarith
  have hA : ∀ᶠ n in F, |((A n).map fun p => p.mass * f p.pos).sum - ((A n).map fun p => p.mass * g j p.pos).sum| ≤ ε / 3 := by
    filter_upwards [hin, hC] with n h1 h2
    have key : ∀ B : PtArray, Inside B K → |(B.map fun p => p.mass * f p.pos).sum - (B.map fun p => p.mass * g j p.pos).sum|
        ≤ ε / (3 * W) * (B.map fun p => |p.mass|).sum := by
      intro B
      induction B with
      | nil => intro _; simp
      | cons p B ih =>
        intro h
        have ih' := ih fun q hq => h q (List.mem_cons_of_mem _ hq)
        have h1 := hclose p.pos (h p List.mem_cons_self)
        simp only [List.map_cons, List.sum_cons]
        have e : ∀ a x y s t : ℝ, a * x + s - (a * y + t) = a * (x - y) + (s - t) := by intros; ring
        rw [e]
        refine (abs_add_le _ _).trans ?_
        rw [abs_mul, mul_add]
        refine add_le_add ?_ ih'
        calc |p.mass| * _ ≤ |p.mass| * (ε / (3 * W)) := by gcongr
          _ = _ := by ring
    refine (key _ h1).trans ?_
    rw [← hδ]
    have := le_max_left C 0
    gcongr
    linarith
  have ht' := (Metric.tendsto_nhds.1 (ht j)) (ε / 3) (by positivity)
  filter_upwards [hA, ht'] with n h1 h2
  rw [Real.dist_eq] at h2 ⊢
  calc |((A n).map fun p => p.mass * f p.pos).sum - b.sumOver f|
      = |(((A n).map fun p => p.mass * f p.pos).sum - ((A n).map fun p => p.mass * g j p.pos).sum) +
          (((A n).map fun p => p.mass * g j p.pos).sum - b.sumOver (g j)) + -(b.sumOver f - b.sumOver (g j))| := by congr 1; ring
    _ ≤ _ := (abs_add_le _ _).trans (add_le_add_left (abs_add_le _ _) _)
    _ < ε := by rw [abs_neg]; linarith

theorem filter_map_sum {α : Type*} (p : α → Prop) [DecidablePred p] (h : α → ℝ) (l : List α) :
    ((l.filter fun x => decide (p x)).map h).sum = (l.map fun x => if p x then h x else 0).sum := by
  induction l with
  | nil => rfl
  | cons a l ih =>
    by_cases ha : p a
    · simp [ha, ih]
    · simp [ha, ih]

variable {Ω : Type*} [MeasurableSpace Ω] {P : Measure Ω} {X : ℕ → Ω → ℝ × ℝ} {S : Set (ℝ × ℝ)}

/-- The law of large numbers for a bounded measurable function of the draws. -/
theorem draws_average (hX : UniformDraws P X S) (hS0 : volume S ≠ 0) (hS1 : volume S ≠ ⊤) (h : ℝ × ℝ → ℝ) (hm : Measurable h)
    (C : ℝ) (hC : ∀ p, |h p| ≤ C) :
    ∀ᵐ ω ∂P, Tendsto (fun n : ℕ => (∑ i ∈ Finset.range n, h (X i ω)) / n) atTop (𝓝 (∫ p, h p ∂uniformLaw S)) := by
  have hpr : IsProbabilityMeasure (uniformLaw S) := ⟨by
    rw [uniformLaw, Measure.smul_apply, smul_eq_mul, Measure.restrict_apply_univ, ENNReal.inv_mul_cancel hS0 hS1]⟩
  have hPp : IsProbabilityMeasure P := by
    constructor
    have h1 := hX.law 0
    have h2 : P.map (X 0) Set.univ = uniformLaw S Set.univ := by rw [h1]
    rw [Measure.map_apply (hX.meas 0) MeasurableSet.univ, Set.preimage_univ] at h2
    rw [h2]; exact measure_univ
  have hid : ∀ i, IdentDistrib (X i) (X 0) P P := fun i =>
    ⟨(hX.meas i).aemeasurable, (hX.meas 0).aemeasurable, by rw [hX.law, hX.law]⟩
  have hint : Integrable (fun ω => h (X 0 ω)) P :=
    Integrable.of_bound (hm.comp (hX.meas 0)).aestronglyMeasurable C (Eventually.of_forall fun ω => hC _)
  have hlaw := strong_law_ae_real (μ := P) (fun i ω => h (X i ω)) hint (fun i j hij => (hX.indep i j hij).comp hm hm)
    (fun i => (hid i).comp hm)
  have e : ∫ ω, h (X 0 ω) ∂P = ∫ p, h p ∂uniformLaw S := by
    rw [← hX.law 0, integral_map (hX.meas 0).aemeasurable hm.aestronglyMeasurable]
  rw [← e]
  exact hlaw

/-- The points kept, with equal masses. -/
noncomputable def keptArr (M : ℝ) (g : ℝ × ℝ → V3) (l : List (ℝ × ℝ)) : PtArray := l.map fun p => ⟨M / l.length, g p⟩

/-- Draws, keep those in `D`, map them into `K`: the arrays track the image of the uniform distribution on `D`. -/
theorem draws_track (hX : UniformDraws P X S) (hS0 : volume S ≠ 0) (hS1 : volume S ≠ ⊤) (D : ℝ × ℝ → Prop) [DecidablePred D]
    (hD : MeasurableSet {p | D p}) (hD0 : 0 < (uniformLaw S {p | D p}).toReal) (g : ℝ × ℝ → V3) (hg : Measurable g) (K : Set V3)
    (hK : IsCompact K) (hgK : ∀ p, D p → g p ∈ K) (M : ℝ) (b : Body) (hsup : ∀ p ∈ b, p.mu Kᶜ = 0)
    (hb : ∀ f : V3 → ℝ, Continuous f → (∃ C, ∀ v, |f v| ≤ C) →
      b.sumOver f = M * ((∫ p in {p | D p}, f (g p) ∂uniformLaw S) / (uniformLaw S {p | D p}).toReal)) :
    ∀ᵐ ω ∂P, (∀ᶠ n in atTop, ((drawn X n ω).filter fun p => decide (D p)).length ≠ 0) ∧
      Tracks atTop (fun n => keptArr M g ((drawn X n ω).filter fun p => decide (D p))) b K := by
  obtain ⟨φ, h1, h2, h3⟩ := exists_tests K hK
  have hsum : ∀ (h : ℝ × ℝ → ℝ) n ω, (((drawn X n ω).filter fun p => decide (D p)).map h).sum =
      ∑ i ∈ Finset.range n, Set.indicator {p | D p} h (X i ω) := by
    intro h n ω
    rw [filter_map_sum, drawn, List.map_map]
    change ∑ i ∈ Finset.range n, _ = _
    refine Finset.sum_congr rfl fun i _ => ?_
    simp only [Function.comp, Set.indicator_apply, Set.mem_ofPred_eq]
  have hlen : ∀ n ω, (((drawn X n ω).filter fun p => decide (D p)).length : ℝ) =
      ∑ i ∈ Finset.range n, Set.indicator {p | D p} (fun _ => (1 : ℝ)) (X i ω) := by
    intro n ω; rw [← hsum]; simp
  have a1 := draws_average hX hS0 hS1 (Set.indicator {p | D p} fun _ => (1 : ℝ)) (measurable_const.indicator hD) 1 (fun p => by
    rw [Set.indicator_apply]; split_ifs <;> simp)
  have a2 : ∀ j, _ := fun j => draws_average hX hS0 hS1 (Set.indicator {p | D p} fun p => φ j (g p))
    (((h1 j).measurable.comp hg).indicator hD) (h2 j).choose (fun p => by
      have hh := (h2 j).choose_spec
      rw [Set.indicator_apply]
      split_ifs
      · exact hh _
      · rw [abs_zero]; exact (abs_nonneg _).trans (hh 0))
  rw [integral_indicator hD, setIntegral_const, smul_eq_mul, mul_one] at a1
  filter_upwards [a1, ae_all_iff.2 a2] with ω b1 b2
  have hc : ∀ᶠ n in atTop, ((drawn X n ω).filter fun p => decide (D p)).length ≠ 0 := by
    filter_upwards [b1.eventually (lt_mem_nhds hD0)] with n hn e
    rw [← hlen, e] at hn
    simp at hn
  refine ⟨hc, h3 atTop _ b ?_ ⟨|M|, ?_⟩ hsup fun j => ?_⟩
  · refine Eventually.of_forall fun n p hp => ?_
    obtain ⟨q, hq, rfl⟩ := List.mem_map.1 hp
    exact hgK q (by simpa using (List.mem_filter.1 hq).2)
  · filter_upwards [hc] with n hn
    have : ((((drawn X n ω).filter fun p => decide (D p)).length : ℕ) : ℝ) ≠ 0 := by exact_mod_cast hn
    simp only [keptArr, List.map_map, Function.comp_def, List.map_const', List.sum_replicate, nsmul_eq_mul, abs_div, Nat.abs_cast]
    rw [mul_div_cancel₀ _ this]
  · rw [hb _ (h1 j) (h2 j)]
    have b2 := b2 j
    rw [integral_indicator hD] at b2
    refine ((b2.div b1 hD0.ne').const_mul M).congr' ?_
    filter_upwards [eventually_gt_atTop 0, hc] with n hn hn'
    have hn0 : (n : ℝ) ≠ 0 := by exact_mod_cast hn.ne'
    have hl0 : ((((drawn X n ω).filter fun p => decide (D p)).length : ℕ) : ℝ) ≠ 0 := by exact_mod_cast hn'
    simp only [keptArr, List.map_map, Function.comp_def, List.sum_map_mul_left]
    rw [hsum]
    simp only [Pi.div_apply]
    rw [← hlen]
    field_simp

end Newt
