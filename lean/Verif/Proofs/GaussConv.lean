import Verif.Proofs.Gauss
import Verif.Spec.Approx
import Mathlib.Topology.ContinuousMap.StoneWeierstrass
import Mathlib.Topology.TietzeExtension
import Mathlib.Topology.MetricSpace.ThickenedIndicator
import Mathlib.MeasureTheory.Integral.Pi
import Mathlib.Algebra.MvPolynomial.Eval
import Mathlib.Topology.Algebra.MvPolynomial

/-! # Products of Gauss-Legendre rules converge -/

namespace Newt.GLeg

open MeasureTheory Finset Filter Topology Spec

/-- The node of the product rule in the box with centre `c` and half sides `h`. -/
noncomputable def gnode (gl : ℕ → Rule) (h c : Fin 3 → ℝ) (n : ℕ × ℕ × ℕ) (m l k : ℕ) : V3 :=
  ![(gl n.1).s m * h 0 + c 0, (gl n.2.1).s l * h 1 + c 1, (gl n.2.2).s k * h 2 + c 2]

/-- The product rule in the box. -/
noncomputable def quad (gl : ℕ → Rule) (h c : Fin 3 → ℝ) (n : ℕ × ℕ × ℕ) (F : V3 → ℝ) : ℝ :=
  ∑ k ∈ range n.2.2, ∑ l ∈ range n.2.1, ∑ m ∈ range n.1,
    (h 0 * h 1 * h 2) * ((gl n.1).w m * (gl n.2.1).w l * (gl n.2.2).w k) * F (gnode gl h c n m l k)

/-- The closed box. -/
def cbox (h c : Fin 3 → ℝ) : Set V3 := {v | ∀ j, v j ∈ Set.Icc (c j - h j) (c j + h j)}

theorem cbox_pi (h c : Fin 3 → ℝ) : cbox h c = Set.pi Set.univ fun j => Set.Icc (c j - h j) (c j + h j) := by
  ext v; simp only [cbox, Set.mem_setOf_eq, Set.mem_pi, Set.mem_univ, true_implies]

theorem cbox_compact (h c : Fin 3 → ℝ) : IsCompact (cbox h c) := by
  rw [cbox_pi]; exact isCompact_univ_pi fun j => isCompact_Icc

variable {gl : ℕ → Rule} {h c : Fin 3 → ℝ} (hgl : ∀ n, 1 ≤ n → Gauss (gl n) n) (hh : ∀ j, 0 < h j)

theorem quad_add (n : ℕ × ℕ × ℕ) (F G : V3 → ℝ) : quad gl h c n (fun v => F v + G v) = quad gl h c n F + quad gl h c n G := by
  simp only [quad, mul_add, sum_add_distrib]

theorem quad_sub (n : ℕ × ℕ × ℕ) (F G : V3 → ℝ) : quad gl h c n (fun v => F v - G v) = quad gl h c n F - quad gl h c n G := by
  simp only [quad, mul_sub, sum_sub_distrib]

theorem quad_smul (n : ℕ × ℕ × ℕ) (a : ℝ) (F : V3 → ℝ) : quad gl h c n (fun v => a * F v) = a * quad gl h c n F := by
  simp only [quad, mul_sum]
  refine sum_congr rfl fun k _ => sum_congr rfl fun l _ => sum_congr rfl fun m _ => ?_
  ring

theorem quad_sum {ι : Type*} (n : ℕ × ℕ × ℕ) (s : Finset ι) (F : ι → V3 → ℝ) :
    quad gl h c n (fun v => ∑ i ∈ s, F i v) = ∑ i ∈ s, quad gl h c n (F i) := by
  classical
  induction s using Finset.induction_on with
  | empty => simp [quad]
  | insert a s ha ih => simp only [sum_insert ha]; rw [quad_add, ih]

include hgl in
theorem gnode_mem (hh : ∀ j, 0 < h j) (n : ℕ × ℕ × ℕ) (m l k : ℕ) (hm : m < n.1) (hl : l < n.2.1) (hk : k < n.2.2) :
    ∀ j, |gnode gl h c n m l k j - c j| < h j := by
  have key : ∀ N i, i < N → ∀ a : ℝ, 0 < a → |(gl N).s i * a| < a := by
    intro N i hi a ha
    rw [abs_mul, abs_of_pos ha]
    have := node_lt (hgl N (by omega)) i hi
    nlinarith
  intro j
  fin_cases j
  · simpa [gnode] using key _ _ hm _ (hh 0)
  · simpa [gnode] using key _ _ hl _ (hh 1)
  · simpa [gnode] using key _ _ hk _ (hh 2)

include hgl hh

theorem gnode_cbox (n : ℕ × ℕ × ℕ) (m l k : ℕ) (hm : m < n.1) (hl : l < n.2.1) (hk : k < n.2.2) :
    gnode gl h c n m l k ∈ cbox h c := by
  intro j
  have := abs_lt.1 (gnode_mem (c := c) hgl hh n m l k hm hl hk j)
  constructor <;> linarith

theorem quad_weight_pos (n : ℕ × ℕ × ℕ) (m l k : ℕ) (hm : m < n.1) (hl : l < n.2.1) (hk : k < n.2.2) :
    0 < (h 0 * h 1 * h 2) * ((gl n.1).w m * (gl n.2.1).w l * (gl n.2.2).w k) := by
  have h1 := weight_pos (hgl n.1 (by omega)) m hm
  have h2 := weight_pos (hgl n.2.1 (by omega)) l hl
  have h3 := weight_pos (hgl n.2.2 (by omega)) k hk
  have := hh 0
  have := hh 1
  have := hh 2
  positivity

theorem quad_mono (n : ℕ × ℕ × ℕ) (F G : V3 → ℝ) (hFG : ∀ v ∈ cbox h c, F v ≤ G v) : quad gl h c n F ≤ quad gl h c n G := by
  refine sum_le_sum fun k hk => sum_le_sum fun l hl => sum_le_sum fun m hm => ?_
  rw [mem_range] at hk hl hm
  exact mul_le_mul_of_nonneg_left (hFG _ (gnode_cbox hgl hh n m l k hm hl hk)) (quad_weight_pos hgl hh n m l k hm hl hk).le

theorem quad_abs (n : ℕ × ℕ × ℕ) (F G : V3 → ℝ) (hFG : ∀ v ∈ cbox h c, |F v| ≤ G v) : |quad gl h c n F| ≤ quad gl h c n G := by
  rw [abs_le]
  constructor
  · have := quad_mono hgl hh n (fun v => (-1) * F v) G fun v hv => by linarith [neg_abs_le (F v), hFG v hv]
    rw [quad_smul] at this
    linarith
  · exact quad_mono hgl hh n F G fun v hv => (le_abs_self _).trans (hFG v hv)

/-- One axis. -/
theorem axis_pow (j : Fin 3) (N e : ℕ) (hN : 1 ≤ N) (he : e < 2 * N) :
    ∑ i ∈ range N, h j * ((gl N).w i * ((gl N).s i * h j + c j) ^ e) = ∫ x in Set.Icc (c j - h j) (c j + h j), x ^ e := by
  have hj := hh j
  have g := hgl N hN ((Polynomial.X * Polynomial.C (h j) + Polynomial.C (c j)) ^ e) (by
    refine lt_of_le_of_lt Polynomial.natDegree_pow_le ?_
    have : (Polynomial.X * Polynomial.C (h j) + Polynomial.C (c j)).natDegree ≤ 1 := by
      refine (Polynomial.natDegree_add_le _ _).trans (max_le ?_ ?_)
      · exact (Polynomial.natDegree_mul_C_le _ _).trans Polynomial.natDegree_X_le
      · simp
    nlinarith)
  simp only [Polynomial.eval_pow, Polynomial.eval_add, Polynomial.eval_mul, Polynomial.eval_X, Polynomial.eval_C] at g
  rw [← mul_sum, g, integral_Icc_eq_integral_Ioc, ← intervalIntegral.integral_of_le (by linarith)]
  have := intervalIntegral.integral_comp_mul_add (a := -1) (b := 1) (fun x => x ^ e) hj.ne' (c j)
  simp only [smul_eq_mul] at this
  have e1 : ∀ x : ℝ, (x * h j + c j) ^ e = (h j * x + c j) ^ e := fun x => by rw [mul_comm]
  simp only [e1, this]
  rw [← mul_assoc, mul_inv_cancel₀ hj.ne', one_mul]
  congr 1 <;> ring

theorem quad_monomial (d : Fin 3 → ℕ) (n : ℕ × ℕ × ℕ) (h0 : 1 ≤ n.1) (h1 : 1 ≤ n.2.1) (h2 : 1 ≤ n.2.2) (e0 : d 0 < 2 * n.1)
    (e1 : d 1 < 2 * n.2.1) (e2 : d 2 < 2 * n.2.2) :
    quad gl h c n (fun v => ∏ i, v i ^ d i) = ∫ v in cbox h c, ∏ i, v i ^ d i := by
  have hr : ∫ v in cbox h c, ∏ i, v i ^ d i = ∏ j, ∫ x in Set.Icc (c j - h j) (c j + h j), x ^ d j := by
    rw [cbox_pi, volume_pi, Measure.restrict_pi_pi, integral_fintype_prod_eq_prod (fun j (x : ℝ) => x ^ d j)]
  have hp : ∀ a b c : ℕ → ℝ, (∑ m ∈ range n.1, a m) * (∑ l ∈ range n.2.1, b l) * (∑ k ∈ range n.2.2, c k)
      = ∑ k ∈ range n.2.2, ∑ l ∈ range n.2.1, ∑ m ∈ range n.1, a m * b l * c k := by
    intro a b c
    rw [mul_sum]
    refine sum_congr rfl fun k _ => ?_
    rw [mul_sum, sum_mul]
    refine sum_congr rfl fun l _ => ?_
    rw [sum_mul, sum_mul]
  rw [hr, Fin.prod_univ_three, ← axis_pow hgl hh 0 n.1 (d 0) h0 e0, ← axis_pow hgl hh 1 n.2.1 (d 1) h1 e1,
    ← axis_pow hgl hh 2 n.2.2 (d 2) h2 e2, hp, quad]
  refine sum_congr rfl fun k _ => sum_congr rfl fun l _ => sum_congr rfl fun m _ => ?_
  rw [Fin.prod_univ_three]
  simp only [gnode, Matrix.cons_val]
  ring

omit hgl hh in
theorem eventually_big (N : ℕ) : ∀ᶠ n : ℕ × ℕ × ℕ in atTop, N ≤ n.1 ∧ N ≤ n.2.1 ∧ N ≤ n.2.2 := by
  filter_upwards [eventually_ge_atTop ((N, N, N) : ℕ × ℕ × ℕ)] with n hn
  exact ⟨hn.1, hn.2.1, hn.2.2⟩

theorem quad_poly (P : MvPolynomial (Fin 3) ℝ) :
    Tendsto (fun n => quad gl h c n fun v => MvPolynomial.eval v P) atTop (𝓝 (∫ v in cbox h c, MvPolynomial.eval v P)) := by
  have hint : ∀ d : Fin 3 →₀ ℕ, Integrable (fun v : V3 => MvPolynomial.coeff d P * ∏ i, v i ^ d i) (volume.restrict (cbox h c)) := by
    intro d
    refine ContinuousOn.integrableOn_compact (cbox_compact h c) (Continuous.continuousOn ?_)
    fun_prop
  simp only [MvPolynomial.eval_eq']
  rw [integral_finset_sum _ fun d _ => hint d]
  simp only [quad_sum]
  refine tendsto_finset_sum _ fun d _ => ?_
  refine tendsto_const_nhds.congr' ?_
  filter_upwards [eventually_big (1 + d 0 + d 1 + d 2)] with n hn
  rw [quad_smul, quad_monomial hgl hh d n (by omega) (by omega) (by omega) (by omega) (by omega) (by omega), integral_const_mul]

theorem quad_one : ∀ᶠ n in atTop, quad gl h c n (fun _ => 1) = (volume (cbox h c)).toReal := by
  filter_upwards [eventually_big 1] with n hn
  have := quad_monomial (c := c) hgl hh (fun _ => 0) n hn.1 hn.2.1 hn.2.2 (by omega) (by omega) (by omega)
  simpa [Measure.real] using this

theorem quad_cont (F : V3 → ℝ) (hF : Continuous F) :
    Tendsto (fun n => quad gl h c n F) atTop (𝓝 (∫ v in cbox h c, F v)) := by
  have hK := cbox_compact h c
  rw [Metric.tendsto_nhds]
  intro ε hε
  set V := (volume (cbox h c)).toReal with hV
  have hV0 : 0 ≤ V := ENNReal.toReal_nonneg
  let A : Subalgebra ℝ C(V3, ℝ) :=
    (MvPolynomial.aeval fun j : Fin 3 => (⟨fun v : V3 => v j, continuous_apply j⟩ : C(V3, ℝ))).range
  have hA : A.SeparatesPoints := by
    intro x y hxy
    obtain ⟨j, hj⟩ : ∃ j, x j ≠ y j := by by_contra h; push Not at h; exact hxy (funext h)
    exact ⟨_, ⟨_, ⟨MvPolynomial.X j, rfl⟩, rfl⟩, by simpa using hj⟩
  obtain ⟨g, ⟨P, rfl⟩, hg⟩ := ContinuousMap.exists_mem_subalgebra_near_continuous_of_isCompact_of_separatesPoints hA ⟨F, hF⟩ hK
    (show 0 < ε / (3 * (V + 1)) by positivity)
  have hev : ∀ v : V3, (MvPolynomial.aeval fun j : Fin 3 => (⟨fun v : V3 => v j, continuous_apply j⟩ : C(V3, ℝ))) P v = MvPolynomial.eval v P := by
    intro v
    have := MvPolynomial.comp_aeval_apply (R := ℝ) (f := fun j : Fin 3 => (⟨fun v : V3 => v j, continuous_apply j⟩ : C(V3, ℝ)))
      (ContinuousMap.evalAlgHom ℝ ℝ v) P
    simp only [ContinuousMap.evalAlgHom_apply] at this
    refine this.trans ?_
    rw [← MvPolynomial.coe_aeval_eq_eval]
    rfl
  have hclose : ∀ v ∈ cbox h c, |F v - MvPolynomial.eval v P| ≤ ε / (3 * (V + 1)) := by
    intro v hv
    have := hg v hv
    rw [show ((MvPolynomial.aeval fun j : Fin 3 => (⟨fun v : V3 => v j, continuous_apply j⟩ : C(V3, ℝ))).toRingHom P : C(V3, ℝ)) v = MvPolynomial.eval v P from hev v] at this
    rw [abs_sub_comm]
    exact this.le
  have hPc : Continuous fun v : V3 => MvPolynomial.eval v P := MvPolynomial.continuous_eval P
  have hsmall : ε / (3 * (V + 1)) * V ≤ ε / 3 := by
    rw [div_mul_eq_mul_div, div_le_div_iff₀ (by positivity) (by norm_num)]
    nlinarith
  have hI : |(∫ v in cbox h c, MvPolynomial.eval v P) - ∫ v in cbox h c, F v| ≤ ε / 3 := by
    rw [← integral_sub (hPc.continuousOn.integrableOn_compact hK) (hF.continuousOn.integrableOn_compact hK)]
    have := norm_setIntegral_le_of_norm_le_const (μ := volume) (s := cbox h c) (f := fun v => MvPolynomial.eval v P - F v)
      (C := ε / (3 * (V + 1))) hK.measure_lt_top fun v hv => by
        rw [Real.norm_eq_abs, abs_sub_comm]
        exact hclose v hv
    rw [Real.norm_eq_abs] at this
    exact this.trans hsmall
  filter_upwards [Metric.tendsto_nhds.1 (quad_poly (c := c) hgl hh P) (ε / 3) (by positivity), quad_one (c := c) hgl hh] with n h1 h2
  have h3 : |quad gl h c n F - quad gl h c n fun v => MvPolynomial.eval v P| ≤ ε / 3 := by
    rw [← quad_sub]
    refine (quad_abs hgl hh n _ (fun _ => ε / (3 * (V + 1)) * 1) fun v hv => by rw [mul_one]; exact hclose v hv).trans ?_
    rw [quad_smul, h2]
    exact hsmall
  rw [Real.dist_eq] at h1 ⊢
  rw [abs_le] at h3 hI
  rw [abs_lt] at h1 ⊢
  constructor <;> linarith [h1.1, h1.2, h3.1, h3.2, hI.1, hI.2]

/-- The product rules over the part of the nodes inside a compact set with null frontier converge. -/
theorem quad_solid (S : Set V3) (hS : IsCompact S) (hfr : volume (frontier S) = 0) (hbx : S ⊆ cbox h c)
    (f : V3 → ℝ) (hf : ContinuousOn f S) :
    Tendsto (fun n => quad gl h c n (S.indicator f)) atTop (𝓝 (∫ v in S, f v)) := by
  have hK := cbox_compact h c
  have hKm : MeasurableSet (cbox h c) := hK.isClosed.measurableSet
  have hSm : MeasurableSet S := hS.isClosed.measurableSet
  -- a continuous extension
  obtain ⟨g, hg⟩ := ContinuousMap.exists_restrict_eq (Y := ℝ) hS.isClosed ⟨S.domRestrict f, continuousOn_iff_continuous_restrict.1 hf⟩
  have hgf : ∀ v ∈ S, g v = f v := by
    intro v hv
    have := congrArg (fun k : C(S, ℝ) => k ⟨v, hv⟩) hg
    simpa using this
  obtain ⟨M0, hM0⟩ := hK.exists_bound_of_continuousOn g.continuous.continuousOn
  set M := max M0 0 with hM
  have hMg : ∀ v ∈ cbox h c, |g v| ≤ M := fun v hv => (hM0 v hv).trans (le_max_left _ _)
  have hM0' : 0 ≤ M := le_max_right _ _
  -- the continuous bounds of the indicator
  let δ : ℕ → ℝ := fun k => 1 / ((k : ℝ) + 1)
  have hδ : ∀ k, 0 < δ k := fun k => by positivity
  have hδ0 : Tendsto δ atTop (𝓝 0) := tendsto_one_div_add_atTop_nhds_zero_nat
  let χ : ℕ → V3 → ℝ := fun k v => ((thickenedIndicator (hδ k) S v : NNReal) : ℝ)
  let η : ℕ → V3 → ℝ := fun k v => 1 - ((thickenedIndicator (hδ k) Sᶜ v : NNReal) : ℝ)
  have hχc : ∀ k, Continuous (χ k) := fun k => NNReal.continuous_coe.comp (thickenedIndicator (hδ k) S).continuous
  have hηc : ∀ k, Continuous (η k) := fun k => continuous_const.sub (NNReal.continuous_coe.comp (thickenedIndicator (hδ k) Sᶜ).continuous)
  have hχ0 : ∀ k v, 0 ≤ χ k v := fun k v => NNReal.coe_nonneg _
  have hχ1 : ∀ k v, χ k v ≤ 1 := fun k v => by exact_mod_cast thickenedIndicator_le_one (hδ k) S v
  have hη1 : ∀ k v, η k v ≤ 1 := fun k v => by
    have : (0 : ℝ) ≤ ((thickenedIndicator (hδ k) Sᶜ v : NNReal) : ℝ) := NNReal.coe_nonneg _
    simp only [η]; linarith
  have hη0 : ∀ k v, 0 ≤ η k v := fun k v => by
    have : ((thickenedIndicator (hδ k) Sᶜ v : NNReal) : ℝ) ≤ 1 := by exact_mod_cast thickenedIndicator_le_one (hδ k) Sᶜ v
    simp only [η]; linarith
  have hχS : ∀ k, ∀ v ∈ S, χ k v = 1 := fun k v hv => by
    simp only [χ]; rw [thickenedIndicator_one (hδ k) S hv]; simp
  have hηS : ∀ k, ∀ v ∉ S, η k v = 0 := fun k v hv => by
    simp only [η]; rw [thickenedIndicator_one (hδ k) Sᶜ hv]; simp
  have hgap : ∀ k v, |S.indicator (fun _ => (1 : ℝ)) v - χ k v| ≤ χ k v - η k v := by
    intro k v
    by_cases hv : v ∈ S
    · rw [Set.indicator_of_mem hv, hχS k v hv, sub_self, abs_zero]
      linarith [hη1 k v]
    · rw [Set.indicator_of_notMem hv, hηS k v hv, zero_sub, abs_neg, abs_of_nonneg (hχ0 k v), sub_zero]
  -- the gap is small
  have hlim : Tendsto (fun k => ∫ v in cbox h c, (χ k v - η k v)) atTop (𝓝 (∫ v in cbox h c, (0 : ℝ))) := by
    refine tendsto_integral_of_dominated_convergence (fun _ => (1 : ℝ)) ?_ ?_ ?_ ?_
    · exact fun k => ((hχc k).sub (hηc k)).aestronglyMeasurable
    · exact integrableOn_const hK.measure_lt_top.ne
    · intro k
      refine Eventually.of_forall fun v => ?_
      rw [Real.norm_eq_abs, abs_le]
      constructor <;> linarith [hχ0 k v, hχ1 k v, hη0 k v, hη1 k v]
    · have hae : ∀ᵐ v : V3, v ∉ frontier S := by
        rw [ae_iff]; simpa using hfr
      filter_upwards [ae_restrict_of_ae hae] with v hv
      have t1 := (tendsto_pi_nhds.1 (thickenedIndicator_tendsto_indicator_closure hδ hδ0 S)) v
      have t2 := (tendsto_pi_nhds.1 (thickenedIndicator_tendsto_indicator_closure hδ hδ0 Sᶜ)) v
      have t1' := (NNReal.continuous_coe.tendsto _).comp t1
      have t2' := (NNReal.continuous_coe.tendsto _).comp t2
      have t3 := t1'.sub (t2'.const_sub 1)
      have e : (((closure S).indicator (fun _ => (1 : NNReal)) v : NNReal) : ℝ)
          - (1 - (((closure Sᶜ).indicator (fun _ => (1 : NNReal)) v : NNReal) : ℝ)) = 0 := by
        rw [hS.isClosed.closure_eq, closure_compl]
        by_cases hvS : v ∈ S
        · have hint : v ∈ interior S := by
            by_contra h'
            exact hv ⟨subset_closure hvS, h'⟩
          rw [Set.indicator_of_mem hvS, Set.indicator_of_notMem (show v ∉ (interior S)ᶜ from fun h' => h' hint)]
          simp
        · have hint : v ∈ (interior S)ᶜ := fun h' => hvS (interior_subset h')
          rw [Set.indicator_of_notMem hvS, Set.indicator_of_mem hint]
          simp
      rw [e] at t3
      exact t3
  rw [integral_zero] at hlim
  have hint1 : ∀ F : V3 → ℝ, Continuous F → IntegrableOn F (cbox h c) := fun F hF => hF.continuousOn.integrableOn_compact hK
  have hSint : ∫ v in S, f v = ∫ v in cbox h c, S.indicator (fun v => g v) v := by
    rw [setIntegral_indicator hSm, Set.inter_eq_self_of_subset_right hbx]
    exact setIntegral_congr_fun hSm fun v hv => (hgf v hv).symm
  have hind : S.indicator f = fun v => S.indicator (fun _ => (1 : ℝ)) v * g v := by
    funext v
    by_cases hv : v ∈ S
    · rw [Set.indicator_of_mem hv, Set.indicator_of_mem hv, hgf v hv, one_mul]
    · rw [Set.indicator_of_notMem hv, Set.indicator_of_notMem hv, zero_mul]
  have hgap' : ∀ k, ∀ v ∈ cbox h c, |S.indicator (fun _ => (1 : ℝ)) v * g v - χ k v * g v| ≤ M * (χ k v - η k v) := by
    intro k v hv
    rw [← sub_mul, abs_mul, mul_comm M]
    exact mul_le_mul (hgap k v) (hMg v hv) (abs_nonneg _) ((abs_nonneg _).trans (hgap k v))
  rw [Metric.tendsto_nhds]
  intro ε hε
  obtain ⟨k, hk⟩ : ∃ k, M * ∫ v in cbox h c, (χ k v - η k v) < ε / 4 := by
    have := hlim.const_mul M
    rw [mul_zero] at this
    exact (this.eventually (gt_mem_nhds (by positivity : (0 : ℝ) < ε / 4))).exists
  have hI : |(∫ v in cbox h c, S.indicator (fun v => g v) v) - ∫ v in cbox h c, χ k v * g v| ≤ ε / 4 := by
    have i1 : IntegrableOn (fun v => S.indicator (fun v => g v) v) (cbox h c) := (hint1 _ g.continuous).indicator hSm
    have i2 : IntegrableOn (fun v => χ k v * g v) (cbox h c) := hint1 _ ((hχc k).mul g.continuous)
    rw [← integral_sub i1 i2, ← Real.norm_eq_abs]
    refine le_trans (norm_integral_le_of_norm_le (g := fun v => M * (χ k v - η k v)) ?_ ?_) ?_
    · exact hint1 _ (continuous_const.mul ((hχc k).sub (hηc k)))
    · filter_upwards [ae_restrict_mem hKm] with v hv
      have := hgap' k v hv
      rw [Real.norm_eq_abs]
      convert this using 2
      by_cases hv : v ∈ S
      · rw [Set.indicator_of_mem hv, Set.indicator_of_mem hv, one_mul]
      · rw [Set.indicator_of_notMem hv, Set.indicator_of_notMem hv, zero_mul]
    · rw [integral_const_mul]; exact hk.le
  have q1 := quad_cont (c := c) hgl hh (fun v => χ k v * g v) ((hχc k).mul g.continuous)
  have q2 := quad_cont (c := c) hgl hh (fun v => M * (χ k v - η k v)) (continuous_const.mul ((hχc k).sub (hηc k)))
  rw [integral_const_mul] at q2
  filter_upwards [Metric.tendsto_nhds.1 q1 (ε / 4) (by positivity), q2.eventually (gt_mem_nhds hk)] with n h1 h2
  have h3 : |quad gl h c n (S.indicator f) - quad gl h c n fun v => χ k v * g v| ≤ ε / 4 := by
    rw [hind, ← quad_sub]
    exact (quad_abs hgl hh n _ _ (hgap' k)).trans h2.le
  rw [Real.dist_eq] at h1 ⊢
  rw [hSint]
  rw [abs_le] at h3 hI
  rw [abs_lt] at h1 ⊢
  constructor <;> linarith [h1.1, h1.2, h3.1, h3.2, hI.1, hI.2]

end Newt.GLeg
