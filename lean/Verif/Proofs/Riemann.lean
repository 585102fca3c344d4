import Verif.Proofs.GlibShapes
import Verif.Spec.Approx
import Mathlib.MeasureTheory.Integral.DominatedConvergence
import Mathlib.MeasureTheory.Integral.Bochner.Set
import Mathlib.MeasureTheory.Measure.Lebesgue.Basic
import Mathlib.Analysis.Convex.Measure
import Mathlib.MeasureTheory.Function.Floor

/-!
# Riemann sums over midpoint grids

A grid of `nx * ny * nz` cell centres in a box, restricted to a compact set with null frontier.
-/

namespace Newt.Shp

open Spec Finset MeasureTheory Filter Topology

/-- The `i`-th of `n` cells. -/
def cell (i n : ℕ) (W c : ℝ) : Set ℝ := Set.Ico (c - W / 2 + i * (W / n)) (c - W / 2 + (i + 1) * (W / n))

/-- The index of the cell containing `x`. -/
noncomputable def idx (n : ℕ) (W c x : ℝ) : ℕ := ⌊(x - (c - W / 2)) / (W / n)⌋₊

theorem mem_cell_iff {i n : ℕ} (hi : i < n) {W : ℝ} (hW : 0 < W) (c x : ℝ) :
    x ∈ cell i n W c ↔ x ∈ Set.Ico (c - W / 2) (c + W / 2) ∧ i = idx n W c x := by
  have hn : (0 : ℝ) < n := by exact_mod_cast (by omega : 0 < n)
  have hh : 0 < W / n := by positivity
  have h1 : (i : ℝ) + 1 ≤ n := by exact_mod_cast hi
  have h0 : (0 : ℝ) ≤ i := Nat.cast_nonneg i
  have hnW : (n : ℝ) * (W / n) = W := by field_simp
  rw [cell, idx]
  constructor
  · rintro ⟨ha, hb⟩
    have hx : c - W / 2 ≤ x := le_trans (by nlinarith) ha
    have hx2 : x < c + W / 2 := by nlinarith
    refine ⟨⟨hx, hx2⟩, ?_⟩
    symm
    rw [Nat.floor_eq_iff (div_nonneg (by linarith) hh.le)]
    constructor
    · rw [le_div_iff₀ hh]; linarith
    · rw [div_lt_iff₀ hh]; linarith
  · rintro ⟨⟨hx, hx2⟩, h⟩
    have h := h.symm
    rw [Nat.floor_eq_iff (div_nonneg (by linarith) hh.le), le_div_iff₀ hh, div_lt_iff₀ hh] at h
    constructor <;> linarith [h.1, h.2]

theorem idx_lt {n : ℕ} (hn : 0 < n) {W : ℝ} (hW : 0 < W) {c x : ℝ} (hx : x ∈ Set.Ico (c - W / 2) (c + W / 2)) :
    idx n W c x < n := by
  have hn' : (0 : ℝ) < n := by exact_mod_cast hn
  have hh : 0 < W / n := by positivity
  rw [idx, Nat.floor_lt (div_nonneg (by linarith [hx.1]) hh.le), div_lt_iff₀ hh]
  have hnW : (n : ℝ) * (W / n) = W := by field_simp
  linarith [hx.2]

open Classical in
theorem sum_cell {n : ℕ} (hn : 0 < n) {W : ℝ} (hW : 0 < W) (c x : ℝ) (g : ℕ → ℝ) :
    ∑ i ∈ range n, (if x ∈ cell i n W c then g i else 0)
      = if x ∈ Set.Ico (c - W / 2) (c + W / 2) then g (idx n W c x) else 0 := by
  split_ifs with h
  · rw [sum_eq_single (idx n W c x)]
    · rw [if_pos ((mem_cell_iff (idx_lt hn hW h) hW c x).2 ⟨h, rfl⟩)]
    · intro i hi hne
      rw [if_neg fun h' => hne ((mem_cell_iff (mem_range.1 hi) hW c x).1 h').2]
    · intro h'
      exact absurd (mem_range.2 (idx_lt hn hW h)) h'
  · refine sum_eq_zero fun i hi => ?_
    rw [if_neg fun h' => h ((mem_cell_iff (mem_range.1 hi) hW c x).1 h').1]

theorem node_near {n : ℕ} (hn : 0 < n) {W : ℝ} (hW : 0 < W) {c x : ℝ} (hx : x ∈ Set.Ico (c - W / 2) (c + W / 2)) :
    |node (idx n W c x) n (W / n) c - x| ≤ W / n := by
  have hn' : (0 : ℝ) < n := by exact_mod_cast hn
  have hh : 0 < W / n := by positivity
  have h := (mem_cell_iff (idx_lt hn hW hx) hW c x).2 ⟨hx, rfl⟩
  have hnW : (n : ℝ) * (W / n) = W := by field_simp
  have e : node (idx n W c x) n (W / n) c = c - W / 2 + idx n W c x * (W / n) + W / n / 2 := by
    rw [node]; linear_combination (-1 / 2 : ℝ) * hnW
  rw [e, abs_le]
  constructor <;> linarith [h.1, h.2]

theorem volume_cells (i : Fin 3 → ℕ) (n : Fin 3 → ℕ) (W c : Fin 3 → ℝ) (hW : ∀ j, 0 < W j) :
    (volume (Set.pi Set.univ fun j => cell (i j) (n j) (W j) (c j))).toReal
      = (W 0 / n 0) * (W 1 / n 1) * (W 2 / n 2) := by
  simp only [cell]
  rw [Real.volume_pi_Ico_toReal]
  · rw [Fin.prod_univ_three]; ring
  · intro j
    have : 0 ≤ W j / n j := div_nonneg (hW j).le (Nat.cast_nonneg _)
    simp only
    linarith

section

variable (W c : Fin 3 → ℝ)

/-- The half-open box. -/
def hbox : Set V3 := {v | ∀ j, v j ∈ Set.Ico (c j - W j / 2) (c j + W j / 2)}

/-- The centre of the cell containing `v`. -/
noncomputable def centre (n : ℕ × ℕ × ℕ) (v : V3) : V3 :=
  ![node (idx n.1 (W 0) (c 0) (v 0)) n.1 (W 0 / n.1) (c 0),
    node (idx n.2.1 (W 1) (c 1) (v 1)) n.2.1 (W 1 / n.2.1) (c 1),
    node (idx n.2.2 (W 2) (c 2) (v 2)) n.2.2 (W 2 / n.2.2) (c 2)]

variable (hW : ∀ j, 0 < W j)

include hW

open Classical in
/-- The grid sum as an integral of a step function. -/
theorem grid_sum_integral (n : ℕ × ℕ × ℕ) (h0 : 0 < n.1) (h1 : 0 < n.2.1) (h2 : 0 < n.2.2) (F : V3 → ℝ) :
    (W 0 / n.1) * (W 1 / n.2.1) * (W 2 / n.2.2) *
      ∑ k ∈ range n.2.2, ∑ l ∈ range n.2.1, ∑ m ∈ range n.1,
        F ![node m n.1 (W 0 / n.1) (c 0), node l n.2.1 (W 1 / n.2.1) (c 1), node k n.2.2 (W 2 / n.2.2) (c 2)]
      = ∫ v, (hbox W c).indicator (fun v => F (centre W c n v)) v := by
  have key : ∀ v : V3, (hbox W c).indicator (fun v => F (centre W c n v)) v
      = ∑ k ∈ range n.2.2, ∑ l ∈ range n.2.1, ∑ m ∈ range n.1,
        (Set.pi Set.univ fun j : Fin 3 => cell (![m, l, k] j) (![n.1, n.2.1, n.2.2] j) (W j) (c j)).indicator
          (fun _ => F ![node m n.1 (W 0 / n.1) (c 0), node l n.2.1 (W 1 / n.2.1) (c 1),
            node k n.2.2 (W 2 / n.2.2) (c 2)]) v := by
    intro v
    have e : ∀ k l m, (Set.pi Set.univ fun j : Fin 3 => cell (![m, l, k] j) (![n.1, n.2.1, n.2.2] j) (W j) (c j)).indicator
          (fun _ => F ![node m n.1 (W 0 / n.1) (c 0), node l n.2.1 (W 1 / n.2.1) (c 1),
            node k n.2.2 (W 2 / n.2.2) (c 2)]) v
        = if v 2 ∈ cell k n.2.2 (W 2) (c 2) then (if v 1 ∈ cell l n.2.1 (W 1) (c 1) then
            (if v 0 ∈ cell m n.1 (W 0) (c 0) then F ![node m n.1 (W 0 / n.1) (c 0), node l n.2.1 (W 1 / n.2.1) (c 1),
            node k n.2.2 (W 2 / n.2.2) (c 2)] else 0) else 0) else 0 := by
      intro k l m
      rw [Set.indicator_apply]
      have : (v ∈ Set.pi Set.univ fun j : Fin 3 => cell (![m, l, k] j) (![n.1, n.2.1, n.2.2] j) (W j) (c j)) ↔
          v 0 ∈ cell m n.1 (W 0) (c 0) ∧ v 1 ∈ cell l n.2.1 (W 1) (c 1) ∧ v 2 ∈ cell k n.2.2 (W 2) (c 2) := by
        simp [Set.mem_pi, Fin.forall_fin_succ]
      simp only [this]
      split_ifs <;> tauto
    simp only [e]
    have s1 : ∀ k, ∑ l ∈ range n.2.1, ∑ m ∈ range n.1, (if v 2 ∈ cell k n.2.2 (W 2) (c 2) then
          (if v 1 ∈ cell l n.2.1 (W 1) (c 1) then
            (if v 0 ∈ cell m n.1 (W 0) (c 0) then F ![node m n.1 (W 0 / n.1) (c 0), node l n.2.1 (W 1 / n.2.1) (c 1),
            node k n.2.2 (W 2 / n.2.2) (c 2)] else 0) else 0) else 0)
        = if v 2 ∈ cell k n.2.2 (W 2) (c 2) then ∑ l ∈ range n.2.1, (if v 1 ∈ cell l n.2.1 (W 1) (c 1) then
            ∑ m ∈ range n.1, (if v 0 ∈ cell m n.1 (W 0) (c 0) then F ![node m n.1 (W 0 / n.1) (c 0),
              node l n.2.1 (W 1 / n.2.1) (c 1), node k n.2.2 (W 2 / n.2.2) (c 2)] else 0) else 0) else 0 := by
      intro k
      split_ifs
      · refine sum_congr rfl fun l _ => ?_
        split_ifs <;> simp
      · simp
    simp only [s1, sum_cell h0 (hW 0), sum_cell h1 (hW 1), sum_cell h2 (hW 2)]
    rw [Set.indicator_apply]
    have : v ∈ hbox W c ↔ v 0 ∈ Set.Ico (c 0 - W 0 / 2) (c 0 + W 0 / 2) ∧ v 1 ∈ Set.Ico (c 1 - W 1 / 2) (c 1 + W 1 / 2)
        ∧ v 2 ∈ Set.Ico (c 2 - W 2 / 2) (c 2 + W 2 / 2) := by
      simp [hbox, Fin.forall_fin_succ]
    simp only [this, centre]
    split_ifs <;> tauto
  simp only [key]
  have hm : ∀ k l m, MeasurableSet
      (Set.pi Set.univ fun j : Fin 3 => cell (![m, l, k] j) (![n.1, n.2.1, n.2.2] j) (W j) (c j)) :=
    fun k l m => MeasurableSet.univ_pi fun j => measurableSet_Ico
  have hfin : ∀ k l m, volume
      (Set.pi Set.univ fun j : Fin 3 => cell (![m, l, k] j) (![n.1, n.2.1, n.2.2] j) (W j) (c j)) ≠ ⊤ := by
    intro k l m
    simp only [cell]
    rw [Real.volume_pi_Ico]
    exact ENNReal.prod_ne_top fun _ _ => ENNReal.ofReal_ne_top
  have hi : ∀ k l m (x : ℝ), Integrable
      ((Set.pi Set.univ fun j : Fin 3 => cell (![m, l, k] j) (![n.1, n.2.1, n.2.2] j) (W j) (c j)).indicator
        (fun _ : V3 => x)) volume := by
    intro k l m x
    rw [integrable_indicator_iff (hm k l m)]
    exact integrableOn_const (hfin k l m)
  rw [integral_finset_sum _ fun k _ => integrable_finset_sum _ fun l _ => integrable_finset_sum _ fun m _ => hi _ _ _ _,
    mul_sum]
  refine sum_congr rfl fun k _ => ?_
  rw [integral_finset_sum _ fun l _ => integrable_finset_sum _ fun m _ => hi _ _ _ _, mul_sum]
  refine sum_congr rfl fun l _ => ?_
  rw [integral_finset_sum _ fun m _ => hi _ _ _ _, mul_sum]
  refine sum_congr rfl fun m _ => ?_
  rw [integral_indicator (hm k l m), setIntegral_const, smul_eq_mul, Measure.real,
    volume_cells ![m, l, k] ![n.1, n.2.1, n.2.2] W c hW]
  simp

theorem centre_tendsto (v : V3) (hv : v ∈ hbox W c) :
    Tendsto (fun n : ℕ × ℕ × ℕ => centre W c n v) atTop (𝓝 v) := by
  have base : ∀ (W' c' x : ℝ) (h' : 0 < W') (hx : x ∈ Set.Ico (c' - W' / 2) (c' + W' / 2)),
      Tendsto (fun n : ℕ => node (idx n W' c' x) n (W' / n) c') atTop (𝓝 x) := by
    intro W' c' x h' hx
    rw [tendsto_iff_dist_tendsto_zero]
    have hlim : Tendsto (fun n : ℕ => W' / (n : ℝ)) atTop (𝓝 0) := tendsto_const_div_atTop_nhds_zero_nat W'
    refine squeeze_zero' (Eventually.of_forall fun _ => dist_nonneg) ?_ hlim
    filter_upwards [eventually_gt_atTop 0] with n hn
    rw [Real.dist_eq]
    exact node_near hn h' hx
  have p1 : Tendsto (fun n : ℕ × ℕ × ℕ => n.1) atTop atTop := by
    rw [← prod_atTop_atTop_eq]; exact tendsto_fst
  have p2 : Tendsto (fun n : ℕ × ℕ × ℕ => n.2.1) atTop atTop := by
    rw [← prod_atTop_atTop_eq, ← prod_atTop_atTop_eq]; exact tendsto_fst.comp tendsto_snd
  have p3 : Tendsto (fun n : ℕ × ℕ × ℕ => n.2.2) atTop atTop := by
    rw [← prod_atTop_atTop_eq, ← prod_atTop_atTop_eq]; exact tendsto_snd.comp tendsto_snd
  rw [tendsto_pi_nhds]
  intro j
  fin_cases j
  · exact (base _ _ _ (hW 0) (hv 0)).comp p1
  · exact (base _ _ _ (hW 1) (hv 1)).comp p2
  · exact (base _ _ _ (hW 2) (hv 2)).comp p3

theorem eventually_pos : ∀ᶠ n : ℕ × ℕ × ℕ in atTop, 0 < n.1 ∧ 0 < n.2.1 ∧ 0 < n.2.2 := by
  filter_upwards [eventually_ge_atTop ((1, 1, 1) : ℕ × ℕ × ℕ)] with n hn
  exact ⟨hn.1, hn.2.1, hn.2.2⟩

/-- Riemann sums over the part of the grid inside a compact set with null frontier converge. -/
theorem riemann (S : Set V3) (hS : IsCompact S) (hfr : volume (frontier S) = 0)
    (hbx : ∀ v ∈ S, ∀ j, |v j - c j| ≤ W j / 2) (f : V3 → ℝ) (hf : ContinuousOn f S) :
    Tendsto (fun n : ℕ × ℕ × ℕ => (W 0 / n.1) * (W 1 / n.2.1) * (W 2 / n.2.2) *
      ∑ k ∈ range n.2.2, ∑ l ∈ range n.2.1, ∑ m ∈ range n.1,
        S.indicator f ![node m n.1 (W 0 / n.1) (c 0), node l n.2.1 (W 1 / n.2.1) (c 1),
          node k n.2.2 (W 2 / n.2.2) (c 2)]) atTop (𝓝 (∫ v in S, f v)) := by
  have hbm : MeasurableSet (hbox W c) := by
    have : hbox W c = Set.pi Set.univ fun j => Set.Ico (c j - W j / 2) (c j + W j / 2) := by
      ext v; simp [hbox, Set.mem_pi]
    rw [this]
    exact MeasurableSet.univ_pi fun j => measurableSet_Ico
  have hbfin : volume (hbox W c) ≠ ⊤ := by
    have : hbox W c = Set.pi Set.univ fun j => Set.Ico (c j - W j / 2) (c j + W j / 2) := by
      ext v; simp [hbox, Set.mem_pi]
    rw [this, Real.volume_pi_Ico]
    exact ENNReal.prod_ne_top fun _ _ => ENNReal.ofReal_ne_top
  obtain ⟨M, hM⟩ : ∃ M : ℝ, ∀ v, ‖S.indicator f v‖ ≤ M := by
    obtain ⟨M, hM⟩ := hS.exists_bound_of_continuousOn hf
    refine ⟨max M 0, fun v => ?_⟩
    by_cases hv : v ∈ S
    · rw [Set.indicator_of_mem hv]; exact (hM v hv).trans (le_max_left _ _)
    · rw [Set.indicator_of_notMem hv]; simp
  rw [← integral_indicator hS.isClosed.measurableSet]
  have hlim : Tendsto (fun n : ℕ × ℕ × ℕ => ∫ v, (hbox W c).indicator (fun v => S.indicator f (centre W c n v)) v)
      atTop (𝓝 (∫ v, S.indicator f v)) := by
    refine tendsto_integral_filter_of_dominated_convergence ((hbox W c).indicator fun _ => M) ?_ ?_ ?_ ?_
    · refine Eventually.of_forall fun n => ?_
      -- the step function is measurable
      have hcm : Measurable (centre W c n) := by
        refine measurable_pi_iff.2 fun j => ?_
        have base : ∀ (W' c' : ℝ) (N : ℕ) (j : Fin 3), Measurable fun v : V3 => node (idx N W' c' (v j)) N (W' / N) c' := by
          intro W' c' N j
          have h1 : Measurable fun v : V3 => idx N W' c' (v j) := by
            unfold idx
            exact (Nat.measurable_floor (R := ℝ)).comp (((measurable_pi_apply j).sub_const _).div_const _)
          have h2 : Measurable fun i : ℕ => node i N (W' / N) c' := measurable_from_nat
          exact h2.comp h1
        fin_cases j
        · exact base _ _ _ 0
        · exact base _ _ _ 1
        · exact base _ _ _ 2
      have hfm : Measurable (S.indicator f) := by
        refine measurable_of_restrict_of_restrict_compl hS.isClosed.measurableSet ?_ ?_
        · have h1 := (continuousOn_iff_continuous_restrict.1 hf).measurable
          convert h1 using 1
          ext v
          exact Set.indicator_of_mem v.2 f
        · have h1 : Measurable fun _ : (Sᶜ : Set V3) => (0 : ℝ) := measurable_const
          convert h1 using 1
          ext v
          exact Set.indicator_of_notMem v.2 f
      exact ((hfm.comp hcm).indicator hbm).aestronglyMeasurable
    · refine Eventually.of_forall fun n => Eventually.of_forall fun v => ?_
      by_cases hv : v ∈ hbox W c
      · rw [Set.indicator_of_mem hv, Set.indicator_of_mem hv]; exact hM _
      · rw [Set.indicator_of_notMem hv, Set.indicator_of_notMem hv]; simp
    · rw [integrable_indicator_iff hbm]
      exact integrableOn_const hbfin
    · have hae : ∀ᵐ v : V3, v ∉ frontier S := by
        rw [ae_iff]; simpa using hfr
      filter_upwards [hae] with v hv
      by_cases hvS : v ∈ S
      · have hint : v ∈ interior S := by
          by_contra h
          exact hv ⟨subset_closure hvS, h⟩
        have hvb : v ∈ hbox W c := by
          have hsub : S ⊆ Set.pi Set.univ fun j => Set.Icc (c j - W j / 2) (c j + W j / 2) := by
            intro u hu j _
            have := abs_le.1 (hbx u hu j)
            constructor <;> linarith [this.1, this.2]
          have h2 := interior_mono hsub hint
          rw [interior_pi_set Set.finite_univ] at h2
          intro j
          have h3 := h2 j (Set.mem_univ j)
          simp only [interior_Icc] at h3
          exact ⟨h3.1.le, h3.2⟩
        have hc : ContinuousAt (S.indicator f) v := by
          have h1 : ContinuousAt f v := hf.continuousAt (mem_interior_iff_mem_nhds.1 hint)
          refine h1.congr ?_
          filter_upwards [mem_interior_iff_mem_nhds.1 hint] with u hu
          rw [Set.indicator_of_mem hu]
        simp only [Set.indicator_of_mem hvb]
        exact hc.tendsto.comp (centre_tendsto W c hW v hvb)
      · rw [Set.indicator_of_notMem hvS]
        by_cases hvb : v ∈ hbox W c
        · simp only [Set.indicator_of_mem hvb]
          have hnb : ∀ᶠ u in 𝓝 v, S.indicator f u = 0 := by
            filter_upwards [hS.isClosed.isOpen_compl.mem_nhds hvS] with u hu
            exact Set.indicator_of_notMem hu f
          refine tendsto_const_nhds.congr' ?_
          filter_upwards [(centre_tendsto W c hW v hvb).eventually hnb] with n hn
          exact hn.symm
        · simp only [Set.indicator_of_notMem hvb]
          exact tendsto_const_nhds
  refine hlim.congr' ?_
  filter_upwards [eventually_pos W hW] with n hn
  exact (grid_sum_integral W c hW n hn.1 hn.2.1 hn.2.2 _).symm

theorem volume_pos_toReal {S : Set V3} (hS : IsCompact S) (hvol : volume S ≠ 0) : 0 < (volume S).toReal :=
  ENNReal.toReal_pos hvol hS.measure_lt_top.ne

/-- The kept grid points of any generator of this form become equidistributed over the solid. -/
theorem approximates_box (S : Set V3) (hS : IsCompact S) (hfr : volume (frontier S) = 0) (hvol : volume S ≠ 0)
    (hbx : ∀ v ∈ S, ∀ j, |v j - c j| ≤ W j / 2) (mass : ℝ) (p : V3 → Bool)
    (hP : ∀ v : V3, (∀ j, |v j - c j| < W j / 2) → (p v = true ↔ v ∈ S)) (pm : ℕ × ℕ × ℕ → ℝ)
    (hpm : ∀ n : ℕ × ℕ × ℕ, 0 < n.1 → 0 < n.2.1 → 0 < n.2.2 → pm n ≠ 0) :
    Approximates atTop (fun n : ℕ × ℕ × ℕ => rescale1 mass (pm n)
      ((box n.1 n.2.1 n.2.2 (W 0 / n.1) (c 0) (W 1 / n.2.1) (c 1) (W 2 / n.2.2) (c 2)).filter p)) mass S ∧
    Approximates atTop (fun n : ℕ × ℕ × ℕ => rescale mass (pm n)
      ((box n.1 n.2.1 n.2.2 (W 0 / n.1) (c 0) (W 1 / n.2.1) (c 1) (W 2 / n.2.2) (c 2)).filter p)) mass S := by
  set pts : ℕ × ℕ × ℕ → List V3 := fun n =>
    (box n.1 n.2.1 n.2.2 (W 0 / n.1) (c 0) (W 1 / n.2.1) (c 1) (W 2 / n.2.2) (c 2)).filter p with hpts
  have hmem : ∀ (n : ℕ × ℕ × ℕ) (v : V3), v ∈ box n.1 n.2.1 n.2.2 (W 0 / n.1) (c 0) (W 1 / n.2.1) (c 1) (W 2 / n.2.2) (c 2) →
      (p v = true ↔ v ∈ S) := by
    intro n v hv
    obtain ⟨k, hk, l, hl, m, hm, e0, e1, e2⟩ := mem_box hv
    have b0 := node_bounds hm (hW 0) (c 0)
    have b1 := node_bounds hl (hW 1) (c 1)
    have b2 := node_bounds hk (hW 2) (c 2)
    rw [← e0] at b0
    rw [← e1] at b1
    rw [← e2] at b2
    refine hP v fun j => abs_lt.2 ?_
    fin_cases j
    · exact ⟨by simp only [Fin.zero_eta]; linarith [b0.1], by simp only [Fin.zero_eta]; linarith [b0.2]⟩
    · exact ⟨by simp only [Fin.mk_one]; linarith [b1.1], by simp only [Fin.mk_one]; linarith [b1.2]⟩
    · exact ⟨by simp only [Fin.reduceFinMk]; linarith [b2.1], by simp only [Fin.reduceFinMk]; linarith [b2.2]⟩
  have hsum : ∀ (n : ℕ × ℕ × ℕ) (f : V3 → ℝ), ((pts n).map f).sum
      = ∑ k ∈ range n.2.2, ∑ l ∈ range n.2.1, ∑ m ∈ range n.1,
        S.indicator f ![node m n.1 (W 0 / n.1) (c 0), node l n.2.1 (W 1 / n.2.1) (c 1),
          node k n.2.2 (W 2 / n.2.2) (c 2)] := by
    intro n f
    rw [← sum_grid n.1 n.2.1 n.2.2 (fun k l m => ![node m n.1 (W 0 / n.1) (c 0), node l n.2.1 (W 1 / n.2.1) (c 1),
          node k n.2.2 (W 2 / n.2.2) (c 2)]) (S.indicator f)]
    have gen : ∀ L : List V3, (∀ v ∈ L, (p v = true ↔ v ∈ S)) →
        ((L.filter p).map f).sum = (L.map (S.indicator f)).sum := by
      intro L
      induction L with
      | nil => simp
      | cons a L ih =>
        intro h
        have ha := h a (by simp)
        have ihL := ih fun v hv => h v (by simp [hv])
        by_cases hPa : p a = true
        · rw [List.filter_cons_of_pos hPa, List.map_cons, List.sum_cons, List.map_cons, List.sum_cons, ihL,
            Set.indicator_of_mem (ha.1 hPa)]
        · rw [List.filter_cons_of_neg hPa, List.map_cons, List.sum_cons, ihL,
            Set.indicator_of_notMem fun h => hPa (ha.2 h), zero_add]
    exact gen _ (hmem n)
  have hlen : ∀ n, ((pts n).length : ℝ) = ((pts n).map fun _ => (1 : ℝ)).sum := by intro n; simp
  have hvpos := volume_pos_toReal W hW hS hvol
  have hcount : Tendsto (fun n : ℕ × ℕ × ℕ => (W 0 / n.1) * (W 1 / n.2.1) * (W 2 / n.2.2) * ((pts n).length : ℝ)) atTop
      (𝓝 (volume S).toReal) := by
    have h := riemann W c hW S hS hfr hbx (fun _ => 1) continuousOn_const
    rw [setIntegral_const, smul_eq_mul, mul_one, Measure.real] at h
    simp only [hlen, hsum]
    exact h
  have hne : ∀ᶠ n in atTop, pts n ≠ [] := by
    filter_upwards [hcount.eventually (lt_mem_nhds hvpos)] with n hn h
    rw [h] at hn
    simp at hn
  have hconv : ∀ f : V3 → ℝ, ContinuousOn f S →
      Tendsto (fun n => (((pts n).map fun p => (⟨mass / (pts n).length, p⟩ : Pt)).map fun p => p.mass * f p.pos).sum) atTop
        (𝓝 (mass / (volume S).toReal * ∫ v in S, f v)) := by
    intro f hf
    have h1 := riemann W c hW S hS hfr hbx f hf
    have h2 := (h1.div hcount hvpos.ne').const_mul mass
    have e : mass * ((∫ v in S, f v) / (volume S).toReal) = mass / (volume S).toReal * ∫ v in S, f v := by ring
    rw [e] at h2
    refine h2.congr' ?_
    filter_upwards [eventually_pos W hW, hne] with n hn hn'
    have hl : ((pts n).length : ℝ) ≠ 0 := by exact_mod_cast fun h' => hn' (List.length_eq_zero_iff.1 h')
    have h0 : (n.1 : ℝ) ≠ 0 := by exact_mod_cast hn.1.ne'
    have h1 : (n.2.1 : ℝ) ≠ 0 := by exact_mod_cast hn.2.1.ne'
    have h2 : (n.2.2 : ℝ) ≠ 0 := by exact_mod_cast hn.2.2.ne'
    have w0 := (hW 0).ne'
    have w1 := (hW 1).ne'
    have w2 := (hW 2).ne'
    rw [List.map_map]
    simp only [Function.comp_def]
    rw [List.sum_map_mul_left, hsum]
    simp only [Pi.div_apply]
    field_simp
  have hok : ∀ᶠ n in atTop, rescale mass (pm n) (pts n) = .ok ((pts n).map fun p => (⟨mass / (pts n).length, p⟩ : Pt)) := by
    filter_upwards [eventually_pos W hW, hne] with n hn hn'
    have hl : ((pts n).length : ℝ) ≠ 0 := by exact_mod_cast fun h' => hn' (List.length_eq_zero_iff.1 h')
    have hp := hpm n hn.1 hn.2.1 hn.2.2
    have hr : ∃ A, rescale mass (pm n) (pts n) = .ok A := by
      rw [rescale, if_neg hn', if_neg]
      · exact ⟨_, rfl⟩
      · simp only [List.map_const', List.sum_replicate, nsmul_eq_mul]
        exact mul_ne_zero hl hp
    obtain ⟨A, hA⟩ := hr
    rw [hA, rescale_ok hA]
  have hfill : Fills atTop (fun n => (pts n).map fun p => (⟨mass / (pts n).length, p⟩ : Pt)) mass S := by
    refine ⟨Eventually.of_forall fun n p hp => ?_, Eventually.of_forall fun n p hp => ?_, hconv⟩
    · obtain ⟨v, hv, rfl⟩ := List.mem_map.1 hp
      obtain ⟨hv1, hv2⟩ := List.mem_filter.1 hv
      exact (hmem n v hv1).1 hv2
    · obtain ⟨v, hv, rfl⟩ := List.mem_map.1 hp
      rw [List.length_map]
  refine ⟨⟨_, ?_, hfill⟩, ⟨_, hok, hfill⟩⟩
  filter_upwards [hok, hne] with n h1 h2
  rw [rescale1, if_neg h2]
  exact h1

end

/-! ## Changing the index -/

theorem _root_.Newt.Spec.Approximates.comp {ι κ : Type*} {F : Filter ι} {G : Filter κ} {A : ι → Out} {mass : ℝ} {S : Set V3}
    (h : Approximates F A mass S) {g : κ → ι} (hg : Tendsto g G F) : Approximates G (fun n => A (g n)) mass S := by
  obtain ⟨B, h1, h2⟩ := h
  exact ⟨fun n => B (g n), hg.eventually h1, hg.eventually h2.inside, hg.eventually h2.equal,
    fun f hf => (h2.tends f hf).comp hg⟩

theorem _root_.Newt.Spec.Approximates.congr' {ι : Type*} {F : Filter ι} {A A' : ι → Out} {mass : ℝ} {S : Set V3}
    (h : Approximates F A mass S) (he : ∀ᶠ n in F, A' n = A n) : Approximates F A' mass S := by
  obtain ⟨B, h1, h2⟩ := h
  refine ⟨B, ?_, h2⟩
  filter_upwards [h1, he] with n h h'
  rw [h', h]

theorem tendsto_dup : Tendsto (fun n : ℕ × ℕ => (n.1, n.1, n.2)) atTop (atTop : Filter (ℕ × ℕ × ℕ)) := by
  have p1 : Tendsto (fun n : ℕ × ℕ => n.1) atTop atTop := by
    rw [← prod_atTop_atTop_eq]; exact tendsto_fst
  have p2 : Tendsto (fun n : ℕ × ℕ => n.2) atTop atTop := by
    rw [← prod_atTop_atTop_eq]; exact tendsto_snd
  have h := p1.prodMk (p1.prodMk p2)
  rwa [prod_atTop_atTop_eq, prod_atTop_atTop_eq] at h

/-! ## Sets with null frontier -/

theorem nf_convex {S : Set V3} (h : Convex ℝ S) : volume (frontier S) = 0 := h.addHaar_frontier volume

theorem nf_compl {S : Set V3} (h : volume (frontier S) = 0) : volume (frontier Sᶜ) = 0 := by
  rwa [frontier_compl]

theorem nf_inter {S T : Set V3} (h1 : volume (frontier S) = 0) (h2 : volume (frontier T) = 0) :
    volume (frontier (S ∩ T)) = 0 := by
  refine measure_mono_null ((frontier_inter_subset S T).trans ?_) (measure_union_null h1 h2)
  exact Set.union_subset_union Set.inter_subset_left Set.inter_subset_right

end Newt.Shp
