import Verif.Spec.Approx
import Mathlib.Topology.UniformSpace.Ascoli
import Mathlib.Topology.ContinuousMap.Compact
import Mathlib.Topology.CompactOpen
import Mathlib.MeasureTheory.Integral.IntegrableOn

/-!
# Double sums over two refined point arrays
-/

namespace Newt

open MeasureTheory Filter Topology Spec

theorem absMass_le {mass : ℝ} {B : PtArray} (h : ∀ p ∈ B, p.mass = mass / B.length) :
    (B.map fun p => |p.mass|).sum ≤ |mass| := by
  rcases eq_or_ne B [] with rfl | hB
  · simp
  · have e : B.map (fun p => |p.mass|) = B.map fun _ => |mass| / B.length := by
      apply List.map_congr_left
      intro p hp
      rw [h p hp, abs_div, abs_of_nonneg (by positivity : (0 : ℝ) ≤ B.length)]
    have hl : (B.length : ℝ) ≠ 0 := by exact_mod_cast fun h' => hB (List.length_eq_zero_iff.1 h')
    rw [e, List.map_const', List.sum_replicate, nsmul_eq_mul, mul_div_cancel₀ _ hl]

theorem sum_abs_le {B : PtArray} {f : V3 → ℝ} {c : ℝ} (hc : ∀ p ∈ B, |f p.pos| ≤ c) :
    |(B.map fun p => p.mass * f p.pos).sum| ≤ (B.map fun p => |p.mass|).sum * c := by
  induction B with
  | nil => simp
  | cons p B ih =>
    have h1 := hc p (by simp)
    have h2 := ih fun q hq => hc q (by simp [hq])
    simp only [List.map_cons, List.sum_cons]
    refine (abs_add_le _ _).trans ?_
    rw [abs_mul, add_mul]
    exact add_le_add (mul_le_mul_of_nonneg_left h1 (abs_nonneg _)) h2

theorem sum_sub_eq (B : PtArray) (f g : V3 → ℝ) :
    (B.map fun p => p.mass * f p.pos).sum - (B.map fun p => p.mass * g p.pos).sum
      = (B.map fun p => p.mass * (f p.pos - g p.pos)).sum := by
  induction B with
  | nil => simp
  | cons p B ih => simp only [List.map_cons, List.sum_cons]; rw [← ih]; ring

/-- A function continuous on the support is integrable. -/
theorem piece_integrable (p : Piece) {K : Set V3} (hK : IsCompact K) (h0 : p.mu Kᶜ = 0) {f : V3 → ℝ} (hf : ContinuousOn f K) :
    Integrable f p.mu := by
  haveI := p.fin
  have h1 : IntegrableOn f K p.mu := hf.integrableOn_compact hK
  have h2 : p.mu.restrict K = p.mu := Measure.restrict_eq_self_of_ae_mem (by
    rw [ae_iff]; exact h0)
  rwa [IntegrableOn, h2] at h1

/-- The double sums over two families of arrays that track bodies converge to the double integral. -/
theorem two_body {ι κ : Type*} {F : Filter ι} {G : Filter κ} {A : ι → PtArray} {B : κ → PtArray} {b c : Body}
    {S T : Set V3} (hA : Tracks F A b S) (hB : Tracks G B c T) (hS : IsCompact S) (hT : IsCompact T)
    (K : V3 → V3 → ℝ) (hK : ContinuousOn (fun p : V3 × V3 => K p.1 p.2) (S ×ˢ T)) :
    Tendsto (fun n : ι × κ => ((A n.1).map fun p => p.mass * ((B n.2).map fun q => q.mass * K p.pos q.pos).sum).sum)
      (F ×ˢ G) (𝓝 (b.map fun p => (c.map fun q => p.rho * q.rho * ∫ x, ∫ y, K x y ∂q.mu ∂p.mu).sum).sum) := by
  classical
  rcases F.eq_or_neBot with rfl | hF
  · simp
  rcases G.eq_or_neBot with rfl | hG
  · simp
  obtain ⟨M, hM⟩ := hA.bounded
  obtain ⟨N, hN⟩ := hB.bounded
  have nonneg : ∀ A : PtArray, 0 ≤ (A.map fun p => |p.mass|).sum := by
    intro A; apply List.sum_nonneg; intro x hx
    obtain ⟨p, _, rfl⟩ := List.mem_map.1 hx
    exact abs_nonneg _
  have hM0 : 0 ≤ M := by obtain ⟨n, hn⟩ := hM.exists; exact (nonneg _).trans hn
  have hN0 : 0 ≤ N := by obtain ⟨n, hn⟩ := hN.exists; exact (nonneg _).trans hn
  have hKx : ∀ x ∈ S, ContinuousOn (K x) T := by
    intro x hx
    exact hK.comp (Continuous.prodMk_right x).continuousOn fun y hy => ⟨hx, hy⟩
  haveI : CompactSpace S := isCompact_iff_compactSpace.1 hS
  haveI : CompactSpace T := isCompact_iff_compactSpace.1 hT
  -- the kernel as a continuous family of continuous functions on `T`
  let Kc : C(S × T, ℝ) := ⟨fun p => K p.1 p.2, by
    have : Continuous fun p : S × T => ((p.1 : V3), (p.2 : V3)) := by fun_prop
    exact hK.comp_continuous this fun p => ⟨p.1.2, p.2.2⟩⟩
  let Kf : C(S, C(T, ℝ)) := Kc.curry
  -- replace the arrays of `T` by empty ones wherever they are not good
  set B' : κ → PtArray := fun k => if Inside (B k) T ∧ ((B k).map fun p => |p.mass|).sum ≤ N then B k else [] with hB'
  have hgood : ∀ k, Inside (B' k) T ∧ ((B' k).map fun p => |p.mass|).sum ≤ N := by
    intro k
    by_cases h : Inside (B k) T ∧ ((B k).map fun p => |p.mass|).sum ≤ N
    · simp only [hB', if_pos h]; exact h
    · simp only [hB', if_neg h]; exact ⟨fun p hp => absurd hp (by simp), by simpa using hN0⟩
  have hBB' : ∀ᶠ k in G, B' k = B k := by
    filter_upwards [hB.inside, hN] with k h1 h2
    exact if_pos ⟨h1, h2⟩
  let g : κ → S → ℝ := fun k x => ((B' k).map fun q => q.mass * K x q.pos).sum
  let g0 : S → ℝ := fun x => c.sumOver (K x)
  have heq : Equicontinuous g := by
    intro x0
    rw [Metric.equicontinuousAt_iff_right]
    intro ε hε
    have hc := Kf.continuous.continuousAt (x := x0)
    have hpos : 0 < ε / (N + 1) := by positivity
    filter_upwards [hc (Metric.ball_mem_nhds (Kf x0) hpos)] with x hx k
    have hx' : dist (Kf x) (Kf x0) < ε / (N + 1) := hx
    rw [dist_comm, Real.dist_eq]
    change |((B' k).map fun q => q.mass * K x q.pos).sum - ((B' k).map fun q => q.mass * K x0 q.pos).sum| < ε
    rw [sum_sub_eq (B' k) (K x) (K x0)]
    have hle : ∀ q ∈ B' k, |K x q.pos - K x0 q.pos| ≤ ε / (N + 1) := by
      intro q hq
      have := (Kf x).dist_apply_le_dist (g := Kf x0) ⟨q.pos, (hgood k).1 q hq⟩
      rw [Real.dist_eq] at this
      exact this.trans hx'.le
    refine (sum_abs_le (f := fun v => K x v - K x0 v) hle).trans_lt ?_
    calc ((B' k).map fun p => |p.mass|).sum * (ε / (N + 1)) ≤ N * (ε / (N + 1)) :=
          mul_le_mul_of_nonneg_right (hgood k).2 hpos.le
      _ < (N + 1) * (ε / (N + 1)) := by
          apply mul_lt_mul_of_pos_right _ hpos; linarith
      _ = ε := by field_simp
  have hpt : Tendsto g G (𝓝 g0) := by
    rw [tendsto_pi_nhds]
    intro x
    refine (hB.tends (K x) (hKx x x.2)).congr' ?_
    filter_upwards [hBB'] with k hk
    simp only [g, hk]
  have hunif : TendstoUniformly g g0 G := by
    have := (Equicontinuous.tendsto_uniformFun_iff_pi heq G g0).2 hpt
    exact UniformFun.tendsto_iff_tendstoUniformly.1 this
  have hcont : Continuous g0 := hunif.continuous (Frequently.of_forall fun k => (heq.continuous k))
  -- extend to all of space
  set h0 : V3 → ℝ := fun x => c.sumOver (K x) with hh0
  have hh0c : ContinuousOn h0 S := by
    rw [continuousOn_iff_continuous_restrict]
    exact hcont
  -- the iterated integral
  have hq : ∀ q ∈ c, ContinuousOn (fun x => ∫ y, K x y ∂q.mu) S := by
    intro q hq
    haveI := q.fin
    have h0 := hB.support q hq
    have hae : ∀ᵐ y ∂q.mu, y ∈ T := by rw [ae_iff]; exact h0
    obtain ⟨C, hC⟩ := (hS.prod hT).bddAbove_image hK.norm
    refine continuousOn_of_dominated (bound := fun _ => C) (fun x hx => (piece_integrable q hT h0 (hKx x hx)).aestronglyMeasurable)
      (fun x hx => ?_) (integrable_const _) ?_
    · filter_upwards [hae] with y hy
      exact hC (Set.mem_image_of_mem _ (Set.mk_mem_prod hx hy))
    · filter_upwards [hae] with y hy
      exact hK.comp (Continuous.prodMk_left y).continuousOn fun x hx => ⟨hx, hy⟩
  have hval : b.sumOver h0 = (b.map fun p => (c.map fun q => p.rho * q.rho * ∫ x, ∫ y, K x y ∂q.mu ∂p.mu).sum).sum := by
    rw [Body.sumOver]
    congr 1
    apply List.map_congr_left
    intro p hp
    have hp0 := hA.support p hp
    have gen : ∀ l : List Piece, (∀ q ∈ l, q ∈ c) → Integrable (fun x => (l.map fun q => q.rho * ∫ y, K x y ∂q.mu).sum) p.mu ∧
        p.rho * ∫ x, (l.map fun q => q.rho * ∫ y, K x y ∂q.mu).sum ∂p.mu
          = (l.map fun q => p.rho * q.rho * ∫ x, ∫ y, K x y ∂q.mu ∂p.mu).sum := by
      intro l
      induction l with
      | nil => intro _; simp
      | cons q l ih =>
        intro hl
        obtain ⟨i1, i2⟩ := ih fun q' hq' => hl q' (by simp [hq'])
        have j1 : Integrable (fun x => q.rho * ∫ y, K x y ∂q.mu) p.mu :=
          (piece_integrable p hS hp0 (hq q (hl q (by simp)))).const_mul _
        simp only [List.map_cons, List.sum_cons]
        refine ⟨j1.add i1, ?_⟩
        rw [integral_add j1 i1, mul_add, i2, integral_const_mul, mul_assoc]
    exact (gen c fun q hq => hq).2
  rw [← hval]
  have hlim := hA.tends h0 hh0c
  have h1 : Tendsto (fun n : ι × κ => ((A n.1).map fun p => p.mass * h0 p.pos).sum) (F ×ˢ G)
      (𝓝 (b.sumOver h0)) := hlim.comp tendsto_fst
  have h2 : Tendsto (fun n : ι × κ => ((A n.1).map fun p => p.mass * ((B n.2).map fun q => q.mass * K p.pos q.pos).sum).sum
      - ((A n.1).map fun p => p.mass * h0 p.pos).sum) (F ×ˢ G) (𝓝 0) := by
    rw [Metric.tendsto_nhds]
    intro ε hε
    have hpos : 0 < ε / (M + 1) := by positivity
    have hu := Metric.tendstoUniformly_iff.1 hunif _ hpos
    have e1 : ∀ᶠ n : ι × κ in F ×ˢ G, (Inside (A n.1) S ∧ ((A n.1).map fun p => |p.mass|).sum ≤ M) :=
      tendsto_fst.eventually (hA.inside.and hM)
    have e2 : ∀ᶠ n : ι × κ in F ×ˢ G, (∀ x : S, dist (g0 x) (g n.2 x) < ε / (M + 1)) ∧ B' n.2 = B n.2 :=
      tendsto_snd.eventually (hu.and hBB')
    filter_upwards [e1, e2] with n hn1 hn2
    rw [Real.dist_eq, sub_zero, sum_sub_eq (A n.1) (fun v => ((B n.2).map fun q => q.mass * K v q.pos).sum) h0]
    have hle : ∀ p ∈ A n.1, |((B n.2).map fun q => q.mass * K p.pos q.pos).sum - h0 p.pos| ≤ ε / (M + 1) := by
      intro p hp
      have := hn2.1 ⟨p.pos, hn1.1 p hp⟩
      rw [dist_comm, Real.dist_eq] at this
      simp only [g, g0, hn2.2] at this
      exact this.le
    refine (sum_abs_le (f := fun v => ((B n.2).map fun q => q.mass * K v q.pos).sum - h0 v) hle).trans_lt ?_
    calc ((A n.1).map fun p => |p.mass|).sum * (ε / (M + 1)) ≤ M * (ε / (M + 1)) :=
          mul_le_mul_of_nonneg_right hn1.2 hpos.le
      _ < (M + 1) * (ε / (M + 1)) := by
          apply mul_lt_mul_of_pos_right _ hpos; linarith
      _ = ε := by field_simp
  have h3 := h2.add h1
  simpa using h3

end Newt
