import Verif.Proofs.TwoBody
import Verif.Proofs.GlibRot
import Verif.Proofs.BodyFirst
import Verif.Props.Glib

/-!
# Building families of point arrays that track bodies
-/

namespace Newt

open MeasureTheory Filter Topology Spec

variable {ι : Type*} {F : Filter ι}

theorem tracks_solid {A : ι → PtArray} {M : ℝ} {S : Set V3} (h : Fills F A M S) (hS : IsCompact S) :
    Tracks F A (Body.solid M S hS) S := by
  refine ⟨h.inside, ⟨|M|, h.equal.mono fun n hn => absMass_le hn⟩, ?_, fun f hf => ?_⟩
  · intro p hp
    simp only [Body.solid, List.mem_singleton] at hp
    subst hp
    simp [Measure.restrict_apply hS.isClosed.measurableSet.compl]
  · have := h.tends f hf
    simpa [Body.sumOver, Body.solid] using this

theorem tracks_points (A : PtArray) (K : Set V3) (hK : Inside A K) : Tracks F (fun _ => A) (Body.points A) K := by
  refine ⟨Eventually.of_forall fun _ => hK, ⟨_, Eventually.of_forall fun _ => le_rfl⟩, ?_, fun f _ => ?_⟩
  · intro p hp
    simp only [Body.points, List.mem_map] at hp
    obtain ⟨a, ha, rfl⟩ := hp
    have : a.pos ∉ Kᶜ := fun h => h (hK a ha)
    change Measure.dirac a.pos Kᶜ = 0
    rw [Measure.dirac_apply, Set.indicator_of_notMem this]
  · simp only [Body.sumOver, Body.points, List.map_map, Function.comp_def, Piece.point, integral_dirac]
    exact tendsto_const_nhds

theorem tracks_append {A B : ι → PtArray} {b c : Body} {K K' : Set V3} (hA : Tracks F A b K) (hB : Tracks F B c K') :
    Tracks F (fun n => A n ++ B n) (b ++ c) (K ∪ K') := by
  obtain ⟨M, hM⟩ := hA.bounded
  obtain ⟨N, hN⟩ := hB.bounded
  refine ⟨?_, ⟨M + N, ?_⟩, ?_, fun f hf => ?_⟩
  · filter_upwards [hA.inside, hB.inside] with n h1 h2 p hp
    rcases List.mem_append.1 hp with h | h
    · exact Or.inl (h1 p h)
    · exact Or.inr (h2 p h)
  · filter_upwards [hM, hN] with n h1 h2
    rw [List.map_append, List.sum_append]; exact add_le_add h1 h2
  · intro p hp
    rcases List.mem_append.1 hp with h | h
    · exact measure_mono_null (Set.compl_subset_compl.2 Set.subset_union_left) (hA.support p h)
    · exact measure_mono_null (Set.compl_subset_compl.2 Set.subset_union_right) (hB.support p h)
  · have h1 := hA.tends f (hf.mono Set.subset_union_left)
    have h2 := hB.tends f (hf.mono Set.subset_union_right)
    have h3 := h1.add h2
    simp only [Body.sumOver, List.map_append, List.sum_append]
    exact h3

theorem tracks_move {A : ι → PtArray} {b : Body} {K : Set V3} (hA : Tracks F A b K) (hK : IsCompact K) (g : V3 → V3)
    (hg : Continuous g) :
    Tracks F (fun n => (A n).map fun p => ⟨p.mass, g p.pos⟩) (b.map fun p => p.move g hg) (g '' K) := by
  have hgK : IsCompact (g '' K) := hK.image hg
  have hsup : ∀ p ∈ b, (p.move g hg).mu (g '' K)ᶜ = 0 := by
    intro p hp
    change (p.mu.map g) (g '' K)ᶜ = 0
    rw [Measure.map_apply hg.measurable hgK.isClosed.measurableSet.compl]
    refine measure_mono_null (t := Kᶜ) ?_ (hA.support p hp)
    intro v hv hK'
    exact hv ⟨v, hK', rfl⟩
  refine ⟨?_, ?_, ?_, fun f hf => ?_⟩
  · filter_upwards [hA.inside] with n h p hp
    obtain ⟨q, hq, rfl⟩ := List.mem_map.1 hp
    exact ⟨q.pos, h q hq, rfl⟩
  · obtain ⟨M, hM⟩ := hA.bounded
    refine ⟨M, hM.mono fun n hn => ?_⟩
    rw [List.map_map]; exact hn
  · intro p hp
    obtain ⟨q, hq, rfl⟩ := List.mem_map.1 hp
    exact hsup q hq
  · have h1 := hA.tends (fun v => f (g v)) (hf.comp hg.continuousOn fun v hv => ⟨v, hv, rfl⟩)
    have e : Body.sumOver (b.map fun p => p.move g hg) f = Body.sumOver b fun v => f (g v) := by
      simp only [Body.sumOver, List.map_map]
      congr 1
      apply List.map_congr_left
      intro p hp
      have hi := (piece_integrable (p.move g hg) hgK (hsup p hp) hf).aestronglyMeasurable
      change p.rho * ∫ v, f v ∂(p.mu.map g) = _
      rw [integral_map hg.aemeasurable hi]
    rw [e]
    simp only [List.map_map, Function.comp_def]
    exact h1

/-! ## The pair forces -/

theorem sub_ne_of_disjoint {S T : Set V3} (h : Disjoint S T) {x y : V3} (hx : x ∈ S) (hy : y ∈ T) : modulus (y - x) ≠ 0 := by
  intro e
  rw [modulus_eq_zero] at e
  have : y = x := sub_eq_zero.1 e
  exact Set.disjoint_left.1 h hx (this ▸ hy)

theorem sum_apply3 (l : List V3) (i : Fin 3) : l.sum i = (l.map fun v => v i).sum := by
  induction l with
  | nil => simp
  | cons a l ih => simp [ih]

/-- The sums of a pair force with weight `m m' k(|y-x|)`. -/
theorem totF_kernel (c : ℝ) (k : ℝ → ℝ) (w : Pt → Pt → ℝ) (hw : ∀ p q, w p q = c * p.mass * q.mass * k (modulus (q.pos - p.pos)))
    (A B : PtArray) (i : Fin 3) :
    totF w A B i = c * (A.map fun p => p.mass * (B.map fun q => q.mass * (k (modulus (q.pos - p.pos)) * (q.pos - p.pos) i)).sum).sum := by
  rw [totF, sum_apply3, List.map_map, ← List.sum_map_mul_left]
  congr 1
  apply List.map_congr_left
  intro p _
  rw [Function.comp, sum_apply3, List.map_map, ← mul_assoc, ← List.sum_map_mul_left]
  congr 1
  apply List.map_congr_left
  intro q _
  simp only [Function.comp, hw, Pi.smul_apply, smul_eq_mul]
  ring

theorem totT_kernel (c : ℝ) (k : ℝ → ℝ) (w : Pt → Pt → ℝ) (hw : ∀ p q, w p q = c * p.mass * q.mass * k (modulus (q.pos - p.pos)))
    (A B : PtArray) (i : Fin 3) :
    totT w A B i = c * (A.map fun p => p.mass * (B.map fun q => q.mass *
      (k (modulus (q.pos - p.pos)) * (crossProduct p.pos (q.pos - p.pos)) i)).sum).sum := by
  rw [totT, sum_apply3, List.map_map, ← List.sum_map_mul_left]
  congr 1
  apply List.map_congr_left
  intro p _
  rw [Function.comp, map_list_sum (crossProduct p.pos), sum_apply3, List.map_map, List.map_map, ← mul_assoc,
    ← List.sum_map_mul_left]
  · congr 1
    apply List.map_congr_left
    intro q _
    simp only [Function.comp, hw, map_smul, Pi.smul_apply, smul_eq_mul]
    ring
  · exact map_add _
  · exact map_zero _

section
variable {κ : Type*} {G : Filter κ} {A : ι → PtArray} {B : κ → PtArray} {b c : Body} {S T : Set V3}

theorem const_double_sum (a : ℝ) (X : Piece → Piece → ℝ) (b c : Body) :
    a * (b.map fun p => (c.map fun q => p.rho * q.rho * X p q).sum).sum
      = (b.map fun p => (c.map fun q => a * p.rho * q.rho * X p q).sum).sum := by
  rw [← List.sum_map_mul_left]
  congr 1
  apply List.map_congr_left
  intro p _
  rw [← List.sum_map_mul_left]
  congr 1
  apply List.map_congr_left
  intro q _
  ring

theorem continuousOn_kernel {k : ℝ → ℝ} (hk : ContinuousOn k {r | r ≠ 0}) (h : Disjoint S T) (u : V3 × V3 → ℝ) (hu : Continuous u) :
    ContinuousOn (fun p : V3 × V3 => k (modulus (p.2 - p.1)) * u p) (S ×ˢ T) := by
  refine ContinuousOn.mul ?_ hu.continuousOn
  refine hk.comp (f := fun p : V3 × V3 => modulus (p.2 - p.1)) ?_ ?_
  · have : Continuous fun p : V3 × V3 => modulus (p.2 - p.1) := by
      unfold modulus; fun_prop
    exact this.continuousOn
  · rintro ⟨x, y⟩ ⟨hx, hy⟩
    exact sub_ne_of_disjoint h hx hy

theorem cross_continuous (i : Fin 3) : Continuous fun p : V3 × V3 => (crossProduct p.1 (p.2 - p.1)) i := by
  simp only [crossProduct, LinearMap.mk₂_apply]
  fin_cases i <;> simp <;> fun_prop

/-- Forces and torques of a central pair force between two tracked bodies. -/
theorem tracks_force (hA : Tracks F A b S) (hB : Tracks G B c T) (hS : IsCompact S) (hT : IsCompact T) (h : Disjoint S T)
    (a : ℝ) (k : ℝ → ℝ) (hk : ContinuousOn k {r | r ≠ 0}) (w : Pt → Pt → ℝ)
    (hw : ∀ p q, w p q = a * p.mass * q.mass * k (modulus (q.pos - p.pos))) (i : Fin 3) :
    Tendsto (fun n : ι × κ => totF w (A n.1) (B n.2) i) (F ×ˢ G)
      (𝓝 (b.map fun p => (c.map fun q => a * p.rho * q.rho * ∫ x, ∫ y, k (modulus (y - x)) * (y - x) i ∂q.mu ∂p.mu).sum).sum) ∧
    Tendsto (fun n : ι × κ => totT w (A n.1) (B n.2) i) (F ×ˢ G)
      (𝓝 (b.map fun p => (c.map fun q => a * p.rho * q.rho *
        ∫ x, ∫ y, k (modulus (y - x)) * (crossProduct x (y - x)) i ∂q.mu ∂p.mu).sum).sum) := by
  have h1 := (two_body hA hB hS hT (fun x y => k (modulus (y - x)) * (y - x) i)
    (continuousOn_kernel hk h (fun p => (p.2 - p.1) i) (by fun_prop))).const_mul a
  have h2 := (two_body hA hB hS hT (fun x y => k (modulus (y - x)) * (crossProduct x (y - x)) i)
    (continuousOn_kernel hk h (fun p => (crossProduct p.1 (p.2 - p.1)) i) (cross_continuous i))).const_mul a
  rw [const_double_sum] at h1 h2
  refine ⟨h1.congr fun n => ?_, h2.congr fun n => ?_⟩
  · rw [totF_kernel a k w hw]
  · rw [totT_kernel a k w hw]

theorem tracks_apart (hA : Tracks F A b S) (hB : Tracks G B c T) (h : Disjoint S T) :
    ∀ᶠ n : ι × κ in F ×ˢ G, Apart (A n.1) (B n.2) := by
  filter_upwards [tendsto_fst.eventually hA.inside, tendsto_snd.eventually hB.inside] with n h1 h2 p hp q hq e
  exact Set.disjoint_left.1 h (h1 p hp) (e ▸ h2 q hq)

end

end Newt
