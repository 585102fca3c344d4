import Verif.Proofs.GaussConv
import Verif.Proofs.GaussMoment
import Verif.Proofs.ApproxSets
import Verif.Spec.GlApprox

/-! # Gauss-Legendre arrays become the solid -/

namespace Newt.GLeg

open MeasureTheory Finset Filter Topology Spec

variable {gl : ℕ → Rule} {h c : Fin 3 → ℝ} (hgl : ∀ n, 1 ≤ n → Gauss (gl n) n) (hh : ∀ j, 0 < h j)

include hgl hh

theorem gl_tracks (S : Set V3) (hS : IsCompact S) (hfr : volume (frontier S) = 0) (hvol : volume S ≠ 0)
    (hbx : ∀ v ∈ S, ∀ j, |v j - c j| ≤ h j) (mass : ℝ) (p : Pt → Bool)
    (hp : ∀ q : Pt, (∀ j, |q.pos j - c j| < h j) → (p q = true ↔ q.pos ∈ S)) (κ : ℝ) (hκ : κ ≠ 0)
    (fm : ℕ × ℕ × ℕ → ℕ → ℕ → ℕ → Pt)
    (hfm : ∀ n k l m, fm n k l m = ⟨κ * ((gl n.1).w m * (gl n.2.1).w l * (gl n.2.2).w k), gnode gl h c n m l k⟩) :
    GlTracks atTop (fun n : ℕ × ℕ × ℕ => rescale1 mass ((rows n.1 n.2.1 n.2.2 (fm n)).filter p)) mass S hS ∧
    GlTracks atTop (fun n : ℕ × ℕ × ℕ => rescale mass ((rows n.1 n.2.1 n.2.2 (fm n)).filter p)) mass S hS := by
  have hbx' : S ⊆ cbox h c := by
    intro v hv j
    have := abs_le.1 (hbx v hv j)
    constructor <;> linarith
  set K : ℕ × ℕ × ℕ → PtArray := fun n => (rows n.1 n.2.1 n.2.2 (fm n)).filter p with hK
  set H := h 0 * h 1 * h 2 with hH
  have hHp : 0 < H := by have := hh 0; have := hh 1; have := hh 2; positivity
  have hmem : ∀ n, ∀ q ∈ rows n.1 n.2.1 n.2.2 (fm n), (p q = true ↔ q.pos ∈ S) := by
    intro n q hq
    obtain ⟨k, hk, l, hl, m, hm, rfl⟩ := mem_rows.1 hq
    refine hp _ fun j => ?_
    rw [hfm]
    exact gnode_mem hgl hh n m l k hm hl hk j
  have hsum : ∀ (n : ℕ × ℕ × ℕ) (f : V3 → ℝ), ((K n).map fun q => q.mass * f q.pos).sum = κ / H * quad gl h c n (S.indicator f) := by
    intro n f
    have gen : ∀ L : PtArray, (∀ q ∈ L, (p q = true ↔ q.pos ∈ S)) →
        ((L.filter p).map fun q => q.mass * f q.pos).sum = (L.map fun q => q.mass * S.indicator f q.pos).sum := by
      intro L
      induction L with
      | nil => simp
      | cons a L ih =>
        intro h
        have ha := h a (by simp)
        have ihL := ih fun v hv => h v (by simp [hv])
        by_cases hPa : p a = true
        · rw [List.filter_cons_of_pos hPa, List.map_cons, List.sum_cons, List.map_cons, List.sum_cons, ihL,
            Set.indicator_of_mem (ha.1 hPa)]
        · rw [List.filter_cons_of_neg hPa, List.map_cons, List.sum_cons, ihL,
            Set.indicator_of_notMem fun h => hPa (ha.2 h), mul_zero, zero_add]
    rw [hK, gen _ (hmem n), rows_sum, quad, mul_sum]
    refine sum_congr rfl fun k _ => ?_
    rw [mul_sum]
    refine sum_congr rfl fun l _ => ?_
    rw [mul_sum]
    refine sum_congr rfl fun m _ => ?_
    rw [hfm]
    simp only
    rw [← hH]
    field_simp
  have hmass : ∀ n, ((K n).map Pt.mass).sum = κ / H * quad gl h c n (S.indicator fun _ => 1) := by
    intro n
    rw [← hsum n fun _ => 1]
    simp
  have hvpos : 0 < (volume S).toReal := ENNReal.toReal_pos hvol hS.measure_lt_top.ne
  have hq1 : Tendsto (fun n => quad gl h c n (S.indicator fun _ => 1)) atTop (𝓝 (volume S).toReal) := by
    have := quad_solid hgl hh S hS hfr hbx' (fun _ => 1) continuousOn_const
    rwa [setIntegral_const, smul_eq_mul, mul_one, Measure.real] at this
  have hpos : ∀ᶠ n in atTop, 0 < quad gl h c n (S.indicator fun _ => 1) := hq1.eventually (lt_mem_nhds hvpos)
  have hnz : ∀ n, 0 < quad gl h c n (S.indicator fun _ => 1) → ((K n).map Pt.mass).sum ≠ 0 := by
    intro n hn
    rw [hmass]
    exact mul_ne_zero (div_ne_zero hκ hHp.ne') hn.ne'
  have hne : ∀ n, 0 < quad gl h c n (S.indicator fun _ => 1) → K n ≠ [] := by
    intro n hn e
    apply hnz n hn
    rw [e]; simp
  set B : ℕ × ℕ × ℕ → PtArray := fun n => (K n).map fun q => ⟨q.mass * (mass / ((K n).map Pt.mass).sum), q.pos⟩ with hB
  have hok : ∀ᶠ n in atTop, rescale mass (K n) = .ok (B n) := by
    filter_upwards [hpos] with n hn
    rw [rescale]
    rw [if_neg (hne n hn), if_neg (hnz n hn)]
  have htr : Tracks atTop B (Body.solid mass S hS) S := by
    refine ⟨Eventually.of_forall fun n q hq => ?_, ⟨|mass|, ?_⟩, ?_, fun f hf => ?_⟩
    · obtain ⟨q', hq', rfl⟩ := List.mem_map.1 hq
      obtain ⟨h1, h2⟩ := List.mem_filter.1 hq'
      exact (hmem n q' h1).1 h2
    · filter_upwards [hpos] with n hn
      have hs := hnz n hn
      have hratio : ∀ q ∈ K n, 0 ≤ q.mass / ((K n).map Pt.mass).sum := by
        intro q hq
        obtain ⟨k, hk, l, hl, m, hm, rfl⟩ := mem_rows.1 (List.mem_filter.1 hq).1
        rw [hmass, hfm]
        have := quad_weight_pos hgl hh n m l k hm hl hk
        rw [← hH] at this
        have e : κ * ((gl n.1).w m * (gl n.2.1).w l * (gl n.2.2).w k) / (κ / H * quad gl h c n (S.indicator fun _ => 1))
            = (H * ((gl n.1).w m * (gl n.2.1).w l * (gl n.2.2).w k)) / quad gl h c n (S.indicator fun _ => 1) := by
          field_simp
        simp only
        rw [e]
        positivity
      have e1 : ((B n).map fun q => |q.mass|) = (K n).map fun q => q.mass * (|mass| / ((K n).map Pt.mass).sum) := by
        rw [hB, List.map_map]
        refine List.map_congr_left fun q hq => ?_
        simp only [Function.comp]
        rw [show q.mass * (mass / ((K n).map Pt.mass).sum) = q.mass / ((K n).map Pt.mass).sum * mass by ring, abs_mul,
          abs_of_nonneg (hratio q hq)]
        ring
      rw [e1, List.sum_map_mul_right]
      refine le_of_eq ?_
      have : ((K n).map fun q => q.mass).sum = ((K n).map Pt.mass).sum := rfl
      rw [this]
      field_simp
    · intro q hq
      simp only [Body.solid, List.mem_singleton] at hq
      subst hq
      simp [Measure.restrict_apply hS.isClosed.measurableSet.compl]
    · have h1 := quad_solid hgl hh S hS hfr hbx' f hf
      have h2 := (h1.div hq1 hvpos.ne').const_mul mass
      have e : mass * ((∫ v in S, f v) / (volume S).toReal) = (Body.solid mass S hS).sumOver f := by
        simp only [Body.sumOver, Body.solid, List.map_cons, List.map_nil, List.sum_cons, List.sum_nil, add_zero]
        ring
      rw [e] at h2
      refine h2.congr' ?_
      filter_upwards [hpos] with n hn
      have e1 : ((B n).map fun q => q.mass * f q.pos)
          = (K n).map fun q => (q.mass * f q.pos) * (mass / ((K n).map Pt.mass).sum) := by
        rw [hB, List.map_map]
        refine List.map_congr_left fun q hq => ?_
        simp only [Function.comp]
        ring
      have := hn.ne'
      rw [e1, List.sum_map_mul_right, hsum, hmass]
      simp only [Pi.div_apply]
      field_simp
  refine ⟨⟨B, ?_, htr⟩, ⟨B, hok, htr⟩⟩
  filter_upwards [hok, hpos] with n h1 h2
  rw [rescale1, if_neg (hne n h2)]
  exact h1

omit hgl hh in
theorem _root_.Newt.Spec.GlTracks.comp {ι κ : Type*} {F : Filter ι} {G : Filter κ} {A : ι → Out} {mass : ℝ} {S : Set V3}
    {hS : IsCompact S} (h : GlTracks F A mass S hS) {g : κ → ι} (hg : Tendsto g G F) :
    GlTracks G (fun n => A (g n)) mass S hS := by
  obtain ⟨B, h1, h2⟩ := h
  obtain ⟨C, hC⟩ := h2.bounded
  exact ⟨fun n => B (g n), hg.eventually h1, hg.eventually h2.inside, ⟨C, hg.eventually hC⟩, h2.support,
    fun f hf => (h2.tends f hf).comp hg⟩

omit hgl hh in
theorem _root_.Newt.Spec.GlTracks.congr' {ι : Type*} {F : Filter ι} {A A' : ι → Out} {mass : ℝ} {S : Set V3}
    {hS : IsCompact S} (h : GlTracks F A mass S hS) (he : ∀ᶠ n in F, A' n = A n) : GlTracks F A' mass S hS := by
  obtain ⟨B, h1, h2⟩ := h
  refine ⟨B, ?_, h2⟩
  filter_upwards [h1, he] with n h h'
  rw [h', h]

omit hgl hh in
theorem tendsto_cube : Tendsto (fun n : ℕ => (n, n, n)) atTop (atTop : Filter (ℕ × ℕ × ℕ)) := by
  rw [← prod_atTop_atTop_eq, ← prod_atTop_atTop_eq]
  exact tendsto_id.prodMk (tendsto_id.prodMk tendsto_id)

end Newt.GLeg
