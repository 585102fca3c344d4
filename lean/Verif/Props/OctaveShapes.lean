import Verif.Props.Octave
import Verif.Props.GlibConverge2

/-!
# C94: the point-array generators of `matlab-src/shapes`
-/

namespace Newt

open Spec MeasureTheory Filter Topology

/-- The vector with its first and last coordinates exchanged. -/
def swapXZ (v : V3) : V3 := ![v 2, v 1, v 0]

theorem swapXZ_swapXZ (v : V3) : swapXZ (swapXZ v) = v := by
  ext i; fin_cases i <;> rfl

theorem swapXZ_mp : MeasurePreserving swapXZ (volume : Measure V3) volume := by
  have h := volume_measurePreserving_piCongrLeft (fun _ : Fin 3 => ℝ) (Equiv.swap (0 : Fin 3) 2)
  have e : (MeasurableEquiv.piCongrLeft (fun _ : Fin 3 => ℝ) (Equiv.swap (0 : Fin 3) 2) : V3 → V3) = swapXZ := by
    funext v
    ext i
    rw [MeasurableEquiv.coe_piCongrLeft]
    fin_cases i
    · exact Equiv.piCongrLeft_apply_apply (fun _ => ℝ) (Equiv.swap (0 : Fin 3) 2) v 2
    · exact Equiv.piCongrLeft_apply_apply (fun _ => ℝ) (Equiv.swap (0 : Fin 3) 2) v 1
    · exact Equiv.piCongrLeft_apply_apply (fun _ => ℝ) (Equiv.swap (0 : Fin 3) 2) v 0
  rw [← e]
  exact h

theorem swapXZ_continuous : Continuous swapXZ := by
  refine continuous_pi fun i => ?_
  fin_cases i <;> simp only [swapXZ] <;> fun_prop

/-- The homeomorphism behind `swapXZ`. -/
def swapXZH : V3 ≃ₜ V3 where
  toFun := swapXZ
  invFun := swapXZ
  left_inv := swapXZ_swapXZ
  right_inv := swapXZ_swapXZ
  continuous_toFun := swapXZ_continuous
  continuous_invFun := swapXZ_continuous

/-- Exchanging two coordinates of all points. -/
def swapPt (p : Pt) : Pt := ⟨p.mass, swapXZ p.pos⟩

theorem fills_swap {ι : Type*} {F : Filter ι} {B : ι → PtArray} {mass : ℝ} {S : Set V3} (h : Fills F B mass S) :
    Fills F (fun n => (B n).map swapPt) mass {v | swapXZ v ∈ S} := by
  refine ⟨?_, ?_, fun f hf => ?_⟩
  · filter_upwards [h.inside] with n hn p hp
    obtain ⟨q, hq, rfl⟩ := List.mem_map.1 hp
    show swapXZ (swapXZ q.pos) ∈ S
    rw [swapXZ_swapXZ]; exact hn q hq
  · filter_upwards [h.equal] with n hn p hp
    obtain ⟨q, hq, rfl⟩ := List.mem_map.1 hp
    rw [List.length_map]; exact hn q hq
  · have hc : ContinuousOn (fun v => f (swapXZ v)) S := by
      refine hf.comp swapXZ_continuous.continuousOn fun v hv => ?_
      show swapXZ (swapXZ v) ∈ S
      rwa [swapXZ_swapXZ]
    have h2 := h.tends _ hc
    have hemb : MeasurableEmbedding swapXZ := swapXZH.measurableEmbedding
    have hv : volume {v | swapXZ v ∈ S} = volume S := swapXZ_mp.measure_preimage_emb hemb S
    have hi : ∫ v in {v | swapXZ v ∈ S}, f v = ∫ v in S, f (swapXZ v) := by
      have := swapXZ_mp.setIntegral_preimage_emb hemb (fun v => f (swapXZ v)) S
      simp only [swapXZ_swapXZ] at this
      exact this
    rw [hv, hi]
    refine h2.congr fun n => ?_
    rw [List.map_map]
    rfl

theorem oct_loop3 (nx ny nz : ℕ) (f : ℕ → ℕ → ℕ → V3) :
    Oct.loop3 nx ny nz f = (Shp.grid nz ny nx fun k l m => swapXZ (f k l m)).map swapXZ := by
  simp only [Oct.loop3, Shp.grid, Nat.floor_natCast, List.map_flatMap, List.map_map, Function.comp_def, swapXZ_swapXZ]

theorem oct_node (i n : ℕ) (h : ℝ) : Oct.node i n h = Shp.node i n h 0 := by
  rw [Oct.node, Shp.node]; ring

theorem oct_box (nx ny nz : ℕ) (hx hy hz : ℝ) :
    Oct.loop3 nx ny nz (fun i j k => ![Oct.node i nx hx, Oct.node j ny hy, Oct.node k nz hz])
      = (Shp.box nz ny nx hz 0 hy 0 hx 0).map swapXZ := by
  rw [oct_loop3, Shp.box]
  simp only [oct_node]
  rfl

theorem loop3_length (nx ny nz : ℝ) (f : ℕ → ℕ → ℕ → V3) :
    (Oct.loop3 nx ny nz f).length = ⌊nx⌋₊ * ⌊ny⌋₊ * ⌊nz⌋₊ := by
  simp [Oct.loop3, List.length_flatMap, Function.comp_def, List.map_const', mul_assoc]

/-- The rows written by the loops of `genPointMassRect`. -/
noncomputable def rectPts (mass t w h nx ny nz : ℝ) : PtArray :=
  (Oct.loop3 nx ny nz fun i j k => ![Oct.node i nx (t / nx), Oct.node j ny (w / ny), Oct.node k nz (h / nz)]).map fun p =>
    (⟨mass / (nx * ny * nz), p⟩ : Pt)

theorem rectPts_length (mass t w h nx ny nz : ℝ) : (rectPts mass t w h nx ny nz).length = ⌊nx⌋₊ * ⌊ny⌋₊ * ⌊nz⌋₊ := by
  rw [rectPts, List.length_map, loop3_length]

theorem oct_rect_def (mass t w h nx ny nz : ℝ) : Oct.genPointMassRect mass t w h nx ny nz =
    if Int.fract (nx * ny * nz) ≠ 0 then .error
    else if ((rectPts mass t w h nx ny nz ++
        List.replicate (⌊nx * ny * nz⌋₊ - (rectPts mass t w h nx ny nz).length) ⟨0, 0⟩ : PtArray).length : ℝ) ≠ nx * ny * nz then .zero
      else .ok (rectPts mass t w h nx ny nz ++
        List.replicate (⌊nx * ny * nz⌋₊ - (rectPts mass t w h nx ny nz).length) ⟨0, 0⟩) := rfl

/-- The array of `genPointMassRect` for whole numbers of points. -/
theorem oct_rect_nat (mass t w h : ℝ) (nx ny nz : ℕ) :
    Oct.genPointMassRect mass t w h nx ny nz = .ok (((Shp.box nz ny nx (h / nz) 0 (w / ny) 0 (t / nx) 0).map fun v =>
      (⟨mass / ((nx * ny * nz : ℕ) : ℝ), v⟩ : Pt)).map swapPt) := by
  have hi : ((nx : ℝ) * ny * nz) = ((nx * ny * nz : ℕ) : ℝ) := by push_cast; ring
  have hl : (rectPts mass t w h nx ny nz).length = nx * ny * nz := by rw [rectPts_length]; simp
  rw [oct_rect_def, if_neg (by rw [hi, Int.fract_natCast]; simp), hl, hi, Nat.floor_natCast, Nat.sub_self, List.replicate_zero,
    List.append_nil, hl, if_neg (by simp)]
  congr 1
  rw [rectPts, oct_box, List.map_map, List.map_map, hi]
  rfl

/-- C94: for positive whole numbers of points `genPointMassRect` returns `nx ny nz` equal masses adding up to `mass`, all
inside the box, with the centre of mass at the origin - for all combinations of counts (compare C44, C85 for the Python
`rectangle`). -/
theorem C94_rect (mass t w h : ℝ) (nx ny nz : ℕ) (ht : 0 < t) (hw : 0 < w) (hh : 0 < h) (h1 : 0 < nx) (h2 : 0 < ny)
    (h3 : 0 < nz) : ∃ A, Oct.genPointMassRect mass t w h nx ny nz = .ok A ∧ A.length = nx * ny * nz ∧
      (∀ p ∈ A, p.mass = mass / (nx * ny * nz : ℕ)) ∧ totalMass A = mass ∧ Inside A (brick t w h) ∧
      ∀ i, firstMoment A i = 0 := by
  classical
  refine ⟨_, oct_rect_nat mass t w h nx ny nz, ?_, ?_, ?_, ?_, ?_⟩
  · simp [Shp.box, Shp.grid, List.length_flatMap, Function.comp_def, List.map_const']; ring
  · intro p hp
    obtain ⟨q, hq, rfl⟩ := List.mem_map.1 hp
    obtain ⟨v, hv, rfl⟩ := List.mem_map.1 hq
    rfl
  · have hne : Shp.box nz ny nx (h / nz) 0 (w / ny) 0 (t / nx) 0 ≠ [] := by
      intro e
      have := congrArg List.length e
      simp [Shp.box, Shp.grid, List.length_flatMap, Function.comp_def, List.map_const'] at this
      omega
    have hlen : (Shp.box nz ny nx (h / nz) 0 (w / ny) 0 (t / nx) 0).length = nx * ny * nz := by
      simp [Shp.box, Shp.grid, List.length_flatMap, Function.comp_def, List.map_const']; ring
    have := Shp.totalMass_map (mass := mass) hne
    rw [hlen] at this
    rw [totalMass, List.map_map]
    exact this
  · intro p hp
    obtain ⟨q, hq, rfl⟩ := List.mem_map.1 hp
    obtain ⟨v, hv, rfl⟩ := List.mem_map.1 hq
    obtain ⟨k, hk, l, hl, m, hm, e0, e1, e2⟩ := Shp.mem_box hv
    have b0 := Shp.node_abs hm hh
    have b1 := Shp.node_abs hl hw
    have b2 := Shp.node_abs hk ht
    rw [← e0] at b0
    rw [← e1] at b1
    rw [← e2] at b2
    exact ⟨b2.le, b1.le, b0.le⟩
  · intro i
    set pm := mass / ((nx * ny * nz : ℕ) : ℝ) with hpm
    have hs : ∀ g : V3 → ℝ, (((((Shp.box nz ny nx (h / nz) 0 (w / ny) 0 (t / nx) 0).map fun v => (⟨pm, v⟩ : Pt)).map swapPt).map
        fun p => p.mass * g p.pos)).sum = pm * ((Shp.box nz ny nx (h / nz) 0 (w / ny) 0 (t / nx) 0).map fun v => g (swapXZ v)).sum := by
      intro g
      rw [List.map_map, List.map_map, ← List.sum_map_mul_left]
      rfl
    rw [firstMoment, hs fun v => v i]
    have hcoord : ∀ j : Fin 3, ((Shp.box nz ny nx (h / nz) 0 (w / ny) 0 (t / nx) 0).map fun v => v j).sum = 0 := by
      intro j
      rw [Shp.box, Shp.sum_grid (g := fun v => v j)]
      have hz : ∀ (n : ℕ) (d : ℝ), ∑ k ∈ Finset.range n, Shp.node k n d 0 = 0 := by
        intro n d
        have := Shp.sum_axis n d (fun x => x)
        simp only [Finset.sum_neg_distrib] at this
        linarith
      fin_cases j
      · simp only [Fin.zero_eta, Matrix.cons_val, hz, Finset.sum_const_zero]
      · simp only [Fin.mk_one, Matrix.cons_val, Finset.sum_const, ← Finset.smul_sum, hz, smul_zero]
      · simp only [Fin.reduceFinMk, Matrix.cons_val, Finset.sum_const, ← Finset.smul_sum, hz, smul_zero]
    have : (fun v : V3 => swapXZ v i) = fun v => v ((![2, 1, 0] : Fin 3 → Fin 3) i) := by
      funext v; fin_cases i <;> rfl
    rw [this, hcoord, mul_zero]

theorem oct_box_approx (mass t w h : ℝ) (hm : mass ≠ 0) (ht : 0 < t) (hw : 0 < w) (hh : 0 < h) :
    Approximates atTop (fun n : ℕ × ℕ × ℕ => Shp.rescale mass mass ((Shp.box n.1 n.2.1 n.2.2 (h / n.1) 0 (w / n.2.1) 0
      (t / n.2.2) 0).filter fun _ => true)) mass (brick h w t) := by
  have hbr : brick h w t = {v : V3 | |v 0| ≤ h / 2} ∩ ({v : V3 | |v 1| ≤ w / 2} ∩ {v : V3 | |v 2| ≤ t / 2}) := rfl
  have hbx : ∀ v ∈ brick h w t, ∀ j, |v j - ![0, 0, 0] j| ≤ ![h, w, t] j / 2 := by
    rintro v ⟨h0, h1, h2⟩
    refine forall_fin3 ?_ ?_ ?_ <;> simp only [Matrix.cons_val, sub_zero]
    · exact h0
    · exact h1
    · exact h2
  have hcl : IsClosed (brick h w t) := by
    rw [hbr]
    exact (isClosed_le (by fun_prop) (by fun_prop)).inter ((isClosed_le (by fun_prop) (by fun_prop)).inter
      (isClosed_le (by fun_prop) (by fun_prop)))
  exact (Shp.approximates_box ![h, w, t] ![0, 0, 0]
    (forall_fin3 (by simpa using hh) (by simpa using hw) (by simpa using ht)) (brick h w t)
    (Shp.compact_of_box hcl _ _ hbx) (by rw [hbr]; exact Shp.nf_inter (Shp.nf_abs 0 _) (Shp.nf_inter (Shp.nf_abs 1 _) (Shp.nf_abs 2 _)))
    (by
      refine Shp.vol_ne_of_open (U := {v : V3 | |v 0| < h / 2} ∩ ({v : V3 | |v 1| < w / 2} ∩ {v : V3 | |v 2| < t / 2})) ?_ ?_ ?_
      · exact (isOpen_lt (by fun_prop) (by fun_prop)).inter ((isOpen_lt (by fun_prop) (by fun_prop)).inter
          (isOpen_lt (by fun_prop) (by fun_prop)))
      · exact ⟨0, by simp [hh], by simp [hw], by simp [ht]⟩
      · rintro v ⟨g0, g1, g2⟩
        exact ⟨le_of_lt g0, le_of_lt g1, le_of_lt g2⟩) hbx mass (fun _ => true)
    (by
      intro v hv
      have h0 := hv 0
      have h1 := hv 1
      have h2 := hv 2
      simp only [Matrix.cons_val, sub_zero] at h0 h1 h2
      exact ⟨fun _ => ⟨h0.le, h1.le, h2.le⟩, fun _ => rfl⟩) (fun _ => mass) (fun _ _ _ _ => hm)).2

/-- All grid points of the box, in the order of the Python loops. -/
noncomputable def boxPts (mass t w h : ℝ) (n : ℕ × ℕ × ℕ) : PtArray :=
  (Shp.box n.1 n.2.1 n.2.2 (h / n.1) 0 (w / n.2.1) 0 (t / n.2.2) 0).map fun v => ⟨mass / ((n.2.2 * n.2.1 * n.1 : ℕ) : ℝ), v⟩

theorem boxPts_fills (mass t w h : ℝ) (hm : mass ≠ 0) (ht : 0 < t) (hw : 0 < w) (hh : 0 < h) :
    Fills atTop (boxPts mass t w h) mass (brick h w t) := by
  obtain ⟨B, hB, hF⟩ := oct_box_approx mass t w h hm ht hw hh
  have hB' : ∀ᶠ n : ℕ × ℕ × ℕ in atTop, B n = boxPts mass t w h n := by
    filter_upwards [hB] with n hn
    have e := Shp.rescale_ok hn
    simp only [List.filter_true] at e
    have hlen : (Shp.box n.1 n.2.1 n.2.2 (h / n.1) 0 (w / n.2.1) 0 (t / n.2.2) 0).length = n.2.2 * n.2.1 * n.1 := by
      simp [Shp.box, Shp.grid, List.length_flatMap, List.map_const']; ring
    rw [hlen] at e
    rw [e, boxPts]
  refine ⟨?_, ?_, fun f hf => (hF.tends f hf).congr' ?_⟩
  · filter_upwards [hF.inside, hB'] with n h1 h2
    rw [← h2]; exact h1
  · filter_upwards [hF.equal, hB'] with n h1 h2
    rw [← h2]; exact h1
  · filter_upwards [hB'] with n h2
    rw [h2]

/-- C94: as the grid is refined, in whatever way, the arrays of `genPointMassRect` fill the box uniformly. -/
theorem C94_rect_fills (mass t w h : ℝ) (hm : mass ≠ 0) (ht : 0 < t) (hw : 0 < w) (hh : 0 < h) :
    ∃ B : ℕ × ℕ × ℕ → PtArray, (∀ n, Oct.genPointMassRect mass t w h n.1 n.2.1 n.2.2 = .ok (B n)) ∧
      Fills atTop B mass (brick t w h) := by
  refine ⟨fun n => (boxPts mass t w h (n.2.2, n.2.1, n.1)).map swapPt, fun n => oct_rect_nat mass t w h n.1 n.2.1 n.2.2, ?_⟩
  have hsw : {v : V3 | swapXZ v ∈ brick h w t} = brick t w h := by
    ext v
    simp only [brick, swapXZ, Set.mem_setOf_eq, Matrix.cons_val]
    tauto
  rw [← hsw]
  have hF := boxPts_fills mass t w h hm ht hw hh
  have hrev : Tendsto (fun n : ℕ × ℕ × ℕ => (n.2.2, n.2.1, n.1)) atTop (atTop : Filter (ℕ × ℕ × ℕ)) := by
    rw [tendsto_atTop]
    rintro ⟨a, b, c⟩
    filter_upwards [eventually_ge_atTop ((c, b, a) : ℕ × ℕ × ℕ)] with n hn
    exact ⟨hn.2.2, hn.2.1, hn.1⟩
  exact fills_swap (B := fun n : ℕ × ℕ × ℕ => boxPts mass t w h (n.2.2, n.2.1, n.1))
    ⟨hrev.eventually hF.inside, hrev.eventually hF.equal, fun f hf => (hF.tends f hf).comp hrev⟩

/-- C94: what `genPointMassRect` does with counts that are not whole numbers: an error unless their product is one; with
positive counts and a whole product it returns an array that has `(nx - frac)(ny - frac)(nz - frac)` points of mass
`mass/(nx ny nz)` and is filled up with massless rows, so that mass is missing. -/
theorem C94_rect_fractional (mass t w h nx ny nz : ℝ) :
    ((¬ ∃ k : ℤ, nx * ny * nz = k) → Oct.genPointMassRect mass t w h nx ny nz = .error) ∧
    (0 ≤ nx → 0 ≤ ny → 0 ≤ nz → (∃ k : ℤ, nx * ny * nz = k) →
      ∃ A, Oct.genPointMassRect mass t w h nx ny nz = .ok A ∧ (A.length : ℝ) = nx * ny * nz ∧
        totalMass A = mass * ((⌊nx⌋₊ * ⌊ny⌋₊ * ⌊nz⌋₊ : ℕ) : ℝ) / (nx * ny * nz)) ∧
    ((∃ k : ℤ, nx * ny * nz = k) → nx * ny * nz < 0 → Oct.genPointMassRect mass t w h nx ny nz = .zero) := by
  refine ⟨fun h => ?_, fun h1 h2 h3 hk => ?_, fun hk hneg => ?_⟩
  · rw [oct_rect_def, if_pos]
    intro e
    exact h ⟨⌊nx * ny * nz⌋, by have := Int.floor_add_fract (nx * ny * nz); rw [e, add_zero] at this; exact this.symm⟩
  · obtain ⟨k, hk⟩ := hk
    have hnn : 0 ≤ nx * ny * nz := by positivity
    have hk0 : 0 ≤ k := by rw [hk] at hnn; exact_mod_cast hnn
    obtain ⟨n, rfl⟩ := Int.eq_ofNat_of_zero_le hk0
    have hn : nx * ny * nz = (n : ℝ) := by rw [hk]; simp
    have hle : ⌊nx⌋₊ * ⌊ny⌋₊ * ⌊nz⌋₊ ≤ n := by
      have : ((⌊nx⌋₊ * ⌊ny⌋₊ * ⌊nz⌋₊ : ℕ) : ℝ) ≤ n := by
        rw [← hn]
        push_cast
        have a := Nat.floor_le h1
        have b := Nat.floor_le h2
        have c := Nat.floor_le h3
        gcongr
      exact_mod_cast this
    have hlen : (rectPts mass t w h nx ny nz ++
        List.replicate (⌊nx * ny * nz⌋₊ - (rectPts mass t w h nx ny nz).length) ⟨0, 0⟩ : PtArray).length = n := by
      rw [List.length_append, List.length_replicate, rectPts_length, hn, Nat.floor_natCast]; omega
    refine ⟨rectPts mass t w h nx ny nz ++
        List.replicate (⌊nx * ny * nz⌋₊ - (rectPts mass t w h nx ny nz).length) ⟨0, 0⟩, ?_, ?_, ?_⟩
    · rw [oct_rect_def, if_neg (by rw [hn, Int.fract_natCast]; simp), if_neg (by rw [hlen, hn]; simp)]
    · rw [hlen, hn]
    · rw [totalMass, List.map_append, List.sum_append, List.map_replicate, List.sum_replicate, smul_zero, add_zero, rectPts,
        List.map_map]
      simp only [Function.comp_def, List.map_const', List.sum_replicate, nsmul_eq_mul]
      rw [loop3_length]
      ring
  · obtain ⟨k, hk⟩ := hk
    rw [oct_rect_def, if_neg (by rw [hk, Int.fract_intCast]; simp), if_pos]
    intro e
    have : (0 : ℝ) ≤ nx * ny * nz := by rw [← e]; positivity
    linarith

/-- C94: two and a half by two by one points: a fifth of the mass is lost without a message. -/
example : ∃ A, Oct.genPointMassRect 10 1 1 1 2.5 2 1 = .ok A ∧ A.length = 5 ∧ totalMass A = 8 := by
  obtain ⟨A, h1, h2, h3⟩ := (C94_rect_fractional 10 1 1 1 2.5 2 1).2.1 (by norm_num) (by norm_num) (by norm_num) ⟨5, by norm_num⟩
  have f1 : ⌊(2.5 : ℝ)⌋₊ = 2 := by rw [Nat.floor_eq_iff (by norm_num)]; norm_num
  have f2 : ⌊(2 : ℝ)⌋₊ = 2 := by rw [Nat.floor_eq_iff (by norm_num)]; norm_num
  refine ⟨A, h1, ?_, ?_⟩
  · have : (A.length : ℝ) = ((5 : ℕ) : ℝ) := by rw [h2]; norm_num
    exact_mod_cast this
  · rw [h3, f1, f2]; norm_num

example : ∃ A, Oct.genPointMassRect 10 1 2 3 ((4 : ℕ) : ℝ) ((5 : ℕ) : ℝ) ((6 : ℕ) : ℝ) = .ok A ∧ A.length = 4 * 5 * 6 := by
  obtain ⟨A, h1, h2, -⟩ := C94_rect 10 1 2 3 4 5 6 (by norm_num) (by norm_num) (by norm_num) (by norm_num) (by norm_num) (by norm_num)
  exact ⟨A, h1, h2⟩

/-! ### The annular sheet -/

theorem oct_annl_pts (i o t : ℝ) (nx ny : ℕ) (hi : 0 ≤ i) (ho : 0 ≤ o) [DecidablePred fun v : V3 =>
      Real.sqrt (v 1 ^ 2 + v 2 ^ 2) ≤ o ∧ i ≤ Real.sqrt (v 1 ^ 2 + v 2 ^ 2)] [DecidablePred fun v : V3 =>
      i ^ 2 ≤ v 0 ^ 2 + v 1 ^ 2 ∧ v 0 ^ 2 + v 1 ^ 2 ≤ o ^ 2] :
    (Oct.loop3 nx ny ny fun a b c => ![Oct.node a nx (t / nx), Oct.node b ny (o * 2 / ny), Oct.node c ny (o * 2 / ny)]).filter
      (fun v => Real.sqrt (v 1 ^ 2 + v 2 ^ 2) ≤ o ∧ i ≤ Real.sqrt (v 1 ^ 2 + v 2 ^ 2))
    = ((Shp.box ny ny nx (o * 2 / ny) 0 (o * 2 / ny) 0 (t / nx) 0).filter fun v =>
      i ^ 2 ≤ v 0 ^ 2 + v 1 ^ 2 ∧ v 0 ^ 2 + v 1 ^ 2 ≤ o ^ 2).map swapXZ := by
  rw [oct_box, List.filter_map]
  congr 1
  refine List.filter_congr fun v _ => ?_
  have e : (Real.sqrt ((swapXZ v) 1 ^ 2 + (swapXZ v) 2 ^ 2) ≤ o ∧ i ≤ Real.sqrt ((swapXZ v) 1 ^ 2 + (swapXZ v) 2 ^ 2)) ↔
      (i ^ 2 ≤ v 0 ^ 2 + v 1 ^ 2 ∧ v 0 ^ 2 + v 1 ^ 2 ≤ o ^ 2) := by
    simp only [swapXZ, Matrix.cons_val]
    rw [Real.sqrt_le_left ho, Real.le_sqrt hi (by positivity), add_comm (v 1 ^ 2)]
    tauto
  exact decide_eq_decide.2 e

/-- C94: `genPointMassAnnlSheet` is the Python `annulus` with the axis along x (first and last coordinates exchanged, rows
in the same order), whenever there is a point at all. -/
theorem C94_annlSheet (mass i o t : ℝ) (nx ny : ℕ) (hi : 0 ≤ i) (hio : i < o) (ht : 0 < t) (hx : 0 < nx) (hy : 0 < ny)
    (A : PtArray) (hA : A ≠ []) :
    Oct.genPointMassAnnlSheet mass i o t nx ny = .ok (A.map swapPt) ↔ Shp.annulus mass i o t ny nx = .ok A := by
  classical
  have hden : Real.pi * (o ^ 2 - i ^ 2) * t ≠ 0 := by
    have : 0 < o ^ 2 - i ^ 2 := by nlinarith
    have := Real.pi_pos
    positivity
  rw [Oct.genPointMassAnnlSheet, Shp.annulus, if_neg (c := nx = 0 ∨ _) (by push Not; exact ⟨hx.ne', hy.ne', hden⟩)]
  simp only [oct_annl_pts i o t nx ny hi (by linarith : 0 ≤ o)]
  set pts := ((Shp.box ny ny nx (o * 2 / ny) 0 (o * 2 / ny) 0 (t / nx) 0).filter fun v =>
      i ^ 2 ≤ v 0 ^ 2 + v 1 ^ 2 ∧ v 0 ^ 2 + v 1 ^ 2 ≤ o ^ 2) with hpts
  set pm := mass / (Real.pi * (o ^ 2 - i ^ 2) * t) * (t / nx) * (o * 2 / ny) * (o * 2 / ny) with hpm
  have hpm' : mass / (Real.pi * (o ^ 2 - i ^ 2) * t) * (o * 2 / ny) * (o * 2 / ny) * (t / nx) = pm := by rw [hpm]; ring
  rw [hpm', Shp.rescale1, Shp.rescale]
  by_cases hp : pts = []
  · rw [if_pos (by rw [hp]; rfl), if_pos hp]
    simp [hA.symm, hA]
  · rw [if_neg (by simpa using hp), if_neg hp, if_neg hp]
    have hs : ((pts.map swapXZ).map fun _ => pm).sum = (pts.map fun _ => pm).sum := by rw [List.map_map]; rfl
    rw [hs]
    by_cases h0 : (pts.map fun _ => pm).sum = 0
    · rw [if_pos h0]; simp only [h0]; simp
    · rw [if_neg h0]
      simp only [if_neg h0]
      have hmap : (pts.map swapXZ).map (fun v => (⟨pm / ((pts.map fun _ => pm).sum / mass), v⟩ : Pt))
          = (pts.map fun v => (⟨pm * (mass / (pts.map fun _ => pm).sum), v⟩ : Pt)).map swapPt := by
        rw [List.map_map, List.map_map]
        refine List.map_congr_left fun v _ => ?_
        simp only [Function.comp, swapPt, Pt.mk.injEq, and_true]
        rw [div_div_eq_mul_div, mul_div_assoc]
      rw [hmap, Oct.Ret.ok.injEq, Shp.Out.ok.injEq]
      have hinj : Function.Injective swapPt := by
        intro a b hab
        have h1 := congrArg Pt.mass hab
        have h2 := congrArg Pt.pos hab
        have h3 : a.pos = b.pos := by rw [← swapXZ_swapXZ a.pos, ← swapXZ_swapXZ b.pos]; exact congrArg swapXZ h2
        cases a; cases b
        simp_all [swapPt]
      exact (List.map_injective_iff.2 hinj).eq_iff

/-- C94: the sheets fill the annular plate `|x| <= t/2, i^2 <= y^2 + z^2 <= o^2` as the grid is refined. -/
theorem C94_annlSheet_fills (mass i o t : ℝ) (hm : mass ≠ 0) (hi : 0 ≤ i) (hio : i < o) (ht : 0 < t) :
    ∃ B : ℕ × ℕ → PtArray, (∀ᶠ n in atTop, Oct.genPointMassAnnlSheet mass i o t n.1 n.2 = .ok (B n)) ∧
      Fills atTop B mass {v | |v 0| ≤ t / 2 ∧ i ^ 2 ≤ v 1 ^ 2 + v 2 ^ 2 ∧ v 1 ^ 2 + v 2 ^ 2 ≤ o ^ 2} := by
  obtain ⟨B, hB, hF⟩ := C84_annulus mass i o t hm hi hio ht
  have hsw : Tendsto (fun n : ℕ × ℕ => (n.2, n.1)) atTop (atTop : Filter (ℕ × ℕ)) := by
    rw [tendsto_atTop]
    rintro ⟨a, b⟩
    filter_upwards [eventually_ge_atTop ((b, a) : ℕ × ℕ)] with n hn
    exact ⟨hn.2, hn.1⟩
  refine ⟨fun n => (B (n.2, n.1)).map swapPt, ?_, ?_⟩
  · -- an empty array cannot converge to the solid
    have hne : ∀ᶠ n in atTop, B n ≠ [] := by
      have h1 := hF.tends (fun _ => 1) continuousOn_const
      set S := prism t (sector i o 0 Real.pi) with hS
      have hv : (volume S).toReal ≠ 0 := by
        refine (ENNReal.toReal_pos (vol_prism_sector hi hio ht Real.pi_pos le_rfl) ?_).ne'
        exact (prism_compact _ _ (sector_compact _ _ _ _)).measure_lt_top.ne
      rw [setIntegral_const, smul_eq_mul, mul_one, Measure.real, div_mul_cancel₀ _ hv] at h1
      have h2 := h1.eventually_ne hm
      filter_upwards [h2] with n hn e
      rw [e] at hn
      simp at hn
    filter_upwards [hsw.eventually hB, hsw.eventually hne, ev2] with n h1 h2 h3
    exact (C94_annlSheet mass i o t n.1 n.2 hi hio ht h3.1 h3.2 _ h2).2 h1
  · have hF2 : Fills atTop (fun n : ℕ × ℕ => B (n.2, n.1)) mass (prism t (sector i o 0 Real.pi)) :=
      ⟨hsw.eventually hF.inside, hsw.eventually hF.equal, fun f hf => (hF.tends f hf).comp hsw⟩
    have h := fills_swap hF2
    have e : {v : V3 | swapXZ v ∈ prism t (sector i o 0 Real.pi)} =
        {v | |v 0| ≤ t / 2 ∧ i ^ 2 ≤ v 1 ^ 2 + v 2 ^ 2 ∧ v 1 ^ 2 + v 2 ^ 2 ≤ o ^ 2} := by
      ext v
      rw [prism_sector_eq hi (by linarith) Real.pi_pos le_rfl]
      simp only [Set.mem_inter_iff, Set.mem_setOf_eq, swapXZ, Matrix.cons_val, Real.cos_pi, Real.sin_pi, add_comm (v 2 ^ 2)]
      have := abs_nonneg (v 1)
      constructor
      · tauto
      · rintro ⟨a, b, c⟩; exact ⟨a, b, c, by linarith⟩
    rwa [e] at h

/-! ### Rings and lines -/

/-- C94: the points of a ring have equal masses adding up to `mass` and lie on the circle of the given radius about the
x axis; the Octave rotation by one step about the x axis maps the array to its cyclic shift. -/
theorem C94_ring (mass radius : ℝ) (n : ℕ) (hn : 0 < n) : ∃ A, Oct.genPointMassXRing mass radius n = .ok A ∧ A.length = n ∧
    totalMass A = mass ∧ (∀ p ∈ A, p.mass = mass / n ∧ p.pos 0 = 0 ∧ p.pos 1 ^ 2 + p.pos 2 ^ 2 = radius ^ 2) ∧
    Oct.rotatePMArray A (2 * Real.pi / n) ![1, 0, 0] = some (A.rotate 1) := by
  have hn0 : (n : ℝ) ≠ 0 := by exact_mod_cast hn.ne'
  set pt : ℕ → Pt := fun i => ⟨mass / n, ![0, Real.sin (2 * Real.pi / n * i) * radius, Real.cos (2 * Real.pi / n * i) * radius]⟩ with hpt
  refine ⟨(List.range n).map pt, ?_, by simp, ?_, ?_, ?_⟩
  · rw [Oct.genPointMassXRing, if_neg hn.ne']
  · rw [totalMass, List.map_map]
    simp only [Function.comp_def, hpt, List.map_const', List.length_range, List.sum_replicate, nsmul_eq_mul]
    field_simp
  · intro p hp
    obtain ⟨i, -, rfl⟩ := List.mem_map.1 hp
    refine ⟨rfl, rfl, ?_⟩
    simp only [hpt, Matrix.cons_val]
    have := Real.sin_sq_add_cos_sq (2 * Real.pi / n * i)
    linear_combination radius ^ 2 * this
  · have hv : (![1, 0, 0] : V3) ≠ 0 := fun e => by have := congrFun e 0; simp at this
    have hstep : ∀ i : ℕ, rotF (-(2 * Real.pi / n)) ![1, 0, 0] (pt i).pos = (pt (i + 1)).pos := by
      intro i
      have hr := rotF_isRotation hv (-(2 * Real.pi / n))
      rw [hr.plane _ (by simp [hpt, dotProduct, Fin.sum_univ_three])]
      have h1 : (![1, 0, 0] : V3) ⬝ᵥ ![1, 0, 0] = 1 := by simp [dotProduct, Fin.sum_univ_three]
      rw [h1, Real.sqrt_one, div_one, Real.cos_neg, Real.sin_neg]
      have e : 2 * Real.pi / n * ((i + 1 : ℕ) : ℝ) = 2 * Real.pi / n * i + 2 * Real.pi / n := by push_cast; ring
      simp only [hpt, e, Real.sin_add, Real.cos_add, cross_apply]
      ext j
      fin_cases j <;> simp <;> ring
    rw [C92_rotate_agrees, rotate_some hv, Option.some.injEq, List.map_map]
    have hwrap : pt n = pt 0 := by
      simp only [hpt, div_mul_cancel₀ _ hn0]
      simp
    apply List.ext_getElem
    · simp
    intro i h1 h2
    simp only [List.length_map, List.length_range] at h1
    rw [List.getElem_map, List.getElem_range, List.getElem_rotate, List.getElem_map, List.getElem_range]
    simp only [Function.comp, List.length_map, List.length_range, hstep]
    rcases Nat.lt_or_ge (i + 1) n with h | h
    · rw [Nat.mod_eq_of_lt h]
    · have : i + 1 = n := by omega
      rw [this, Nat.mod_self, ← hwrap]

/-- C94: `genPointMassLine` starts at `z = 0` whatever `zstart` is. -/
theorem C94_line (m x y zstart zspace : ℝ) (N : ℕ) :
    (∀ zstart', Oct.genPointMassLine m x y zstart' zspace N = Oct.genPointMassLine m x y zstart zspace N) ∧
    (∀ k, k < N → (Oct.genPointMassLine m x y zstart zspace N)[k]? = some ⟨m, ![x, y, k * zspace]⟩) ∧
    (Oct.genPointMassLine m x y zstart zspace N).length = N ∧
    (0 < N → (Oct.genPointMassLine m x y zstart zspace N = (List.range N).map (fun k : ℕ => (⟨m, ![x, y, zstart + k * zspace]⟩ : Pt))
      ↔ zstart = 0)) := by
  refine ⟨fun _ => rfl, fun k hk => ?_, by simp [Oct.genPointMassLine], fun hN => ⟨fun h => ?_, fun h => ?_⟩⟩
  · simp [Oct.genPointMassLine, hk]
  · have h0 := congrArg (fun l => l[0]?) h
    simp only [Oct.genPointMassLine, List.getElem?_map, List.getElem?_range hN, Option.map_some, Option.some.injEq, Pt.mk.injEq] at h0
    have := congrFun h0.2 2
    simpa using this.symm
  · subst h
    simp [Oct.genPointMassLine]

/-! ### Height maps -/

/-- The number of grid points in a column of height `a`. -/
theorem oct_column (zs : ℝ) (hz : 0 < zs) (a : ℝ) (k : ℕ) :
    k < ⌊a / zs⌋.toNat ↔ ((k : ℝ) + 1) * zs ≤ a := by
  rw [Int.lt_toNat, ← Int.add_one_le_iff, Int.le_floor, le_div_iff₀ hz]
  push_cast
  rfl

/-- C94: the points made from a height map: one for each grid cell of size `zSpacing` that fits completely under the
surface of its column, at the centre of the cell; nothing for missing (NaN) heights. -/
theorem C94_heightmap (nr nc : ℕ) (A : ℕ → ℕ → Option ℝ) (xs ys zs rho : ℝ) (hz : 0 < zs) (hm : 0 < xs * ys * zs * rho) (p : Pt) :
    p ∈ Oct.genPointMassArrayFrom2DArray nr nc A xs ys zs rho ↔
      ∃ c r k a, c < nc ∧ r < nr ∧ A r c = some a ∧ ((k : ℕ) + 1 : ℝ) * zs ≤ a ∧ p.mass = xs * ys * zs * rho ∧
        p.pos = ![(c - (nc - 1 : ℝ) / 2) * xs, (r - (nr - 1 : ℝ) / 2) * ys, (k + 1 / 2) * zs] := by
  have ex : ∀ (s : ℝ) (n c : ℕ), (s - s * n) / 2 + s * c = ((c : ℝ) - (n - 1 : ℝ) / 2) * s := by intros; ring
  have ez : ∀ k : ℕ, (k : ℝ) * zs + zs / 2 = (k + 1 / 2) * zs := by intros; ring
  simp only [Oct.genPointMassArrayFrom2DArray, List.mem_filter, List.mem_flatMap, List.mem_map, List.mem_range, ex, ez,
    decide_eq_true_eq]
  constructor
  · rintro ⟨⟨c, hc, r, hr, k, hk, rfl⟩, -⟩
    rcases hA : A r c with _ | a
    · rw [hA] at hk; simp at hk
    · rw [hA] at hk
      exact ⟨c, r, k, a, hc, hr, hA, (oct_column zs hz a k).1 hk, rfl, rfl⟩
  · rintro ⟨c, r, k, a, hc, hr, hA, hk, h1, h2⟩
    refine ⟨⟨c, hc, r, hr, k, ?_, ?_⟩, by rw [h1]; exact hm⟩
    · rw [hA]; exact (oct_column zs hz a k).2 hk
    · cases p; simp only at h1 h2; rw [h1, h2]

/-- The height of a column, zero when it is missing or negative. -/
noncomputable def columnHeight (A : ℕ → ℕ → Option ℝ) (r c : ℕ) : ℝ := max 0 ((A r c).getD 0)

/-- C94: the total mass of the points is below the mass `rho * volume` under the surface by less than one point mass for
each column. -/
theorem C94_heightmap_mass (nr nc : ℕ) (A : ℕ → ℕ → Option ℝ) (xs ys zs rho : ℝ) (hz : 0 < zs)
    (hm : 0 < xs * ys * zs * rho) :
    totalMass (Oct.genPointMassArrayFrom2DArray nr nc A xs ys zs rho)
      ≤ rho * ∑ c ∈ Finset.range nc, ∑ r ∈ Finset.range nr, xs * ys * columnHeight A r c ∧
    rho * (∑ c ∈ Finset.range nc, ∑ r ∈ Finset.range nr, xs * ys * columnHeight A r c) - nr * nc * (xs * ys * zs * rho)
      ≤ totalMass (Oct.genPointMassArrayFrom2DArray nr nc A xs ys zs rho) := by
  set m := xs * ys * zs * rho with hmdef
  set n : ℕ → ℕ → ℕ := fun r c => match A r c with
    | none => 0
    | some a => ⌊a / zs⌋.toNat with hn
  have htot : totalMass (Oct.genPointMassArrayFrom2DArray nr nc A xs ys zs rho)
      = ∑ c ∈ Finset.range nc, ∑ r ∈ Finset.range nr, m * n r c := by
    rw [Oct.genPointMassArrayFrom2DArray]
    simp only []
    rw [List.filter_eq_self.2]
    · rw [totalMass, List.map_flatMap, Shp.sum_flatMap]
      refine Finset.sum_congr rfl fun c _ => ?_
      rw [List.map_flatMap, Shp.sum_flatMap]
      refine Finset.sum_congr rfl fun r _ => ?_
      rw [List.map_map]
      simp only [Function.comp_def, List.map_const', List.length_range, List.sum_replicate, nsmul_eq_mul]
      rw [mul_comm]
      rfl
    · intro p hp
      simp only [List.mem_flatMap, List.mem_map] at hp
      obtain ⟨c, -, r, -, k, -, rfl⟩ := hp
      simpa using hm
  have hcol : ∀ r c, (n r c : ℝ) * zs ≤ columnHeight A r c ∧ columnHeight A r c ≤ (n r c : ℝ) * zs + zs := by
    intro r c
    rw [columnHeight]
    rcases hA : A r c with _ | a
    · simp only [hn, hA]; simp [hz.le]
    · simp only [hn, hA, Option.getD_some]
      by_cases ha : 0 ≤ a
      · rw [max_eq_right ha]
        have hf : 0 ≤ ⌊a / zs⌋ := Int.floor_nonneg.2 (by positivity)
        have hcast : ((⌊a / zs⌋.toNat : ℕ) : ℝ) = (⌊a / zs⌋ : ℝ) := by
          have : ((⌊a / zs⌋.toNat : ℤ)) = ⌊a / zs⌋ := Int.toNat_of_nonneg hf
          exact_mod_cast this
        rw [hcast]
        have h1 := Int.floor_le (a / zs)
        have h2 := Int.lt_floor_add_one (a / zs)
        rw [le_div_iff₀ hz] at h1
        rw [div_lt_iff₀ hz] at h2
        exact ⟨h1, by linarith⟩
      · push Not at ha
        have : ⌊a / zs⌋ ≤ 0 := by
          rw [← Int.lt_add_one_iff, Int.floor_lt]
          have : a / zs < 0 := div_neg_of_neg_of_pos ha hz
          push_cast; linarith
        rw [Int.toNat_eq_zero.2 this, max_eq_left ha.le]
        simp [hz.le]
  have hk : 0 < xs * ys * rho := by
    have : xs * ys * rho = m / zs := by rw [hmdef]; field_simp
    rw [this]; positivity
  rw [htot, Finset.mul_sum]
  constructor
  · refine Finset.sum_le_sum fun c _ => ?_
    rw [Finset.mul_sum]
    refine Finset.sum_le_sum fun r _ => ?_
    have := mul_le_mul_of_nonneg_left (hcol r c).1 hk.le
    calc m * n r c = xs * ys * rho * (n r c * zs) := by rw [hmdef]; ring
      _ ≤ _ := this
      _ = _ := by ring
  · rw [sub_le_iff_le_add]
    have e : (nr : ℝ) * nc * m = ∑ c ∈ Finset.range nc, ∑ r ∈ Finset.range nr, m := by simp; ring
    rw [e, ← Finset.sum_add_distrib]
    refine Finset.sum_le_sum fun c _ => ?_
    rw [Finset.mul_sum, ← Finset.sum_add_distrib]
    refine Finset.sum_le_sum fun r _ => ?_
    have := mul_le_mul_of_nonneg_left (hcol r c).2 hk.le
    calc rho * (xs * ys * columnHeight A r c) = xs * ys * rho * columnHeight A r c := by ring
      _ ≤ _ := this
      _ = _ := by rw [hmdef]; ring

/-- C94: with a non-positive point mass (a negative density, say, to describe a hole) nothing is returned. -/
theorem C94_heightmap_hole (nr nc : ℕ) (A : ℕ → ℕ → Option ℝ) (xs ys zs rho : ℝ) (hm : xs * ys * zs * rho ≤ 0) :
    Oct.genPointMassArrayFrom2DArray nr nc A xs ys zs rho = [] := by
  rw [Oct.genPointMassArrayFrom2DArray]
  simp only []
  rw [List.filter_eq_nil_iff]
  intro p hp
  simp only [List.mem_flatMap, List.mem_map] at hp
  obtain ⟨c, -, r, -, k, -, rfl⟩ := hp
  simpa using hm

/-! ### Random arrays -/

/-- The annulus of radii `i` and `o` in the plane `x = 0`. -/
def planeAnnulus (i o : ℝ) : Set V3 :=
  {v | v 0 = 0 ∧ i ≤ Real.sqrt (v 1 ^ 2 + v 2 ^ 2) ∧ Real.sqrt (v 1 ^ 2 + v 2 ^ 2) ≤ o}

open Classical in
/-- C94: `genPointMassRandomDisk` reports wrong radii; otherwise it keeps drawing until `NPts` of the points drawn in the
square around the disc lie in the annulus of the plane `x = 0`, and returns the first `NPts` of those. -/
theorem C94_disk (m i o : ℝ) (N : ℕ) (draws : List (ℝ × ℝ)) :
    (i < 0 ∨ o < 0 ∨ o ≤ i → Oct.genPointMassRandomDisk m i o N draws = some .error) ∧
    (0 ≤ i → i < o →
      let hits : List V3 := (draws.map fun t => ![0, o * t.1, o * t.2]).filter fun v => v ∈ planeAnnulus i o
      Oct.genPointMassRandomDisk m i o N draws = if hits.length < N then none else
        some (.ok ((hits.take N).map fun v => ⟨m, v⟩))) := by
  constructor
  · intro h
    rw [Oct.genPointMassRandomDisk]
    split_ifs with h1 h2
    · rfl
    · rfl
    · exfalso; push Not at h1 h2; rcases h with h | h | h <;> linarith
  · intro hi hio hits
    have ho : 0 < o := by linarith
    have key : hits = (draws.filter fun t => decide
        (i / o ≤ Real.sqrt (t.1 ^ 2 + t.2 ^ 2) ∧ Real.sqrt (t.1 ^ 2 + t.2 ^ 2) ≤ 1)).map fun t => ![0, o * t.1, o * t.2] := by
      simp only [hits]
      rw [List.filter_map]
      congr 1
      refine List.filter_congr fun t _ => ?_
      rw [Function.comp, decide_eq_decide]
      have hs : Real.sqrt ((o * t.1) ^ 2 + (o * t.2) ^ 2) = o * Real.sqrt (t.1 ^ 2 + t.2 ^ 2) := by
        rw [show (o * t.1) ^ 2 + (o * t.2) ^ 2 = o ^ 2 * (t.1 ^ 2 + t.2 ^ 2) by ring, Real.sqrt_mul (by positivity), Real.sqrt_sq ho.le]
      simp only [planeAnnulus, Set.mem_setOf_eq, Matrix.cons_val, hs, true_and]
      rw [div_le_iff₀ ho, mul_comm (Real.sqrt _) o]
      refine and_congr Iff.rfl ?_
      constructor
      · intro h
        have : o * Real.sqrt (t.1 ^ 2 + t.2 ^ 2) ≤ o * 1 := by rw [mul_one]; exact h
        exact le_of_mul_le_mul_left this ho
      · intro h
        nlinarith
    rw [Oct.genPointMassRandomDisk, if_neg (by push Not; exact ⟨hi, ho.le⟩), if_neg (not_le.2 hio), key]
    simp only [List.length_map, ← List.map_take, List.map_map]
    congr 1
    congr 2
    refine List.map_congr_left fun t _ => ?_
    simp only [Function.comp, mul_comm o]

/-- C94: the mass of a random disc is `NPts` times the mass of a point and every point is in the annulus. -/
theorem C94_disk_mass (m i o : ℝ) (N : ℕ) (draws : List (ℝ × ℝ)) (A : PtArray)
    (h : Oct.genPointMassRandomDisk m i o N draws = some (.ok A)) :
    A.length = N ∧ totalMass A = N * m ∧ Inside A (planeAnnulus i o) := by
  classical
  by_cases hb : i < 0 ∨ o < 0 ∨ o ≤ i
  · rw [(C94_disk m i o N draws).1 hb] at h; cases h
  push Not at hb
  rw [(C94_disk m i o N draws).2 hb.1 hb.2.2] at h
  split_ifs at h with h4
  simp only [Option.some.injEq, Oct.Ret.ok.injEq] at h
  subst h
  push Not at h4
  refine ⟨by rw [List.length_map, List.length_take]; omega, ?_, ?_⟩
  · rw [totalMass, List.map_map]
    simp only [Function.comp_def, List.map_const', List.sum_replicate, nsmul_eq_mul, List.length_take]
    rw [min_eq_left h4]
  · intro p hp
    obtain ⟨t, ht, rfl⟩ := List.mem_map.1 hp
    simpa using (List.mem_filter.1 (List.mem_of_mem_take ht)).2

/-- C94: `genPointMassRandomRectangle` maps the unit square of the pairs drawn onto the rectangle of the plane `x = 0`. -/
theorem C94_rectangle (m y z : ℝ) (draws : List (ℝ × ℝ)) :
    (y < 0 ∨ z < 0 → Oct.genPointMassRandomRectangle m y z draws = .error) ∧
    (0 ≤ y → 0 ≤ z → Oct.genPointMassRandomRectangle m y z draws =
        .ok (draws.map fun t => ⟨m, ![0, y * (t.1 - 1 / 2), z * (t.2 - 1 / 2)]⟩)) ∧
    (0 ≤ y → 0 ≤ z → (∀ t ∈ draws, 0 ≤ t.1 ∧ t.1 ≤ 1 ∧ 0 ≤ t.2 ∧ t.2 ≤ 1) →
      ∃ A, Oct.genPointMassRandomRectangle m y z draws = .ok A ∧
        Inside A {v | v 0 = 0 ∧ |v 1| ≤ y / 2 ∧ |v 2| ≤ z / 2}) := by
  have key : 0 ≤ y → 0 ≤ z → Oct.genPointMassRandomRectangle m y z draws =
        .ok (draws.map fun t => ⟨m, ![0, y * (t.1 - 1 / 2), z * (t.2 - 1 / 2)]⟩) := by
    intro hy hz
    rw [Oct.genPointMassRandomRectangle, if_neg (by push Not; exact ⟨hz, hy⟩)]
    congr 1
    refine List.map_congr_left fun t _ => ?_
    rw [show (t.1 * 2 - 1) * y / 2 = y * (t.1 - 1 / 2) by ring, show (t.2 * 2 - 1) * z / 2 = z * (t.2 - 1 / 2) by ring]
  refine ⟨fun h => by rw [Oct.genPointMassRandomRectangle, if_pos h.symm], key, fun hy hz hd => ⟨_, key hy hz, ?_⟩⟩
  intro p hp
  obtain ⟨t, ht, rfl⟩ := List.mem_map.1 hp
  obtain ⟨a, b, c, d⟩ := hd t ht
  refine ⟨rfl, ?_, ?_⟩ <;> simp only [Matrix.cons_val, abs_le] <;> constructor <;> nlinarith

/-- C94: the Octave and the Python random shells are the same function of the pairs drawn, unless none is kept. -/
theorem C94_shell (M R : ℝ) (draws : List (ℝ × ℝ)) (h : ∃ t ∈ draws, t.1 ^ 2 + t.2 ^ 2 < 1) :
    Shp.sphericalRandomShell M R draws = .ok (Oct.genPointMassSphericalRandomShell M R draws) := by
  classical
  rw [Shp.sphericalRandomShell, Oct.genPointMassSphericalRandomShell]
  have hne : (draws.filter fun t => decide (t.1 ^ 2 + t.2 ^ 2 < 1)).length ≠ 0 := by
    intro e
    obtain ⟨t, ht, h2⟩ := h
    have := List.length_eq_zero_iff.1 e
    have hm : t ∈ draws.filter fun t => decide (t.1 ^ 2 + t.2 ^ 2 < 1) := List.mem_filter.2 ⟨ht, by simpa using h2⟩
    rw [this] at hm
    simp at hm
  simp only []
  rw [if_neg (by convert hne)]
  congr 1
  refine List.map_congr_left fun t _ => ?_
  simp only [List.map_const', List.sum_replicate, nsmul_eq_mul, mul_one, one_mul]

/-! ### The hypotheses can be met -/

example : ∃ A, Oct.genPointMassXRing 6 2 3 = .ok A ∧ A.length = 3 ∧ totalMass A = 6 := by
  obtain ⟨A, h1, h2, h3, -⟩ := C94_ring 6 2 3 (by norm_num)
  exact ⟨A, h1, h2, h3⟩

/-- A 2-by-1 height map with one NaN entry: two points in the column of height 5/2. -/
example : (⟨1, ![0, 1 / 2, 3 / 2]⟩ : Pt) ∈
    Oct.genPointMassArrayFrom2DArray 2 1 (fun r _ => if r = 0 then none else some (5 / 2)) 1 1 1 1 := by
  rw [C94_heightmap _ _ _ _ _ _ _ (by norm_num) (by norm_num)]
  refine ⟨0, 1, 1, 5 / 2, by norm_num, by norm_num, by simp, by norm_num, by norm_num, ?_⟩
  ext i
  fin_cases i <;> simp <;> norm_num

/-- The second of two draws lies in the annulus. -/
example : Oct.genPointMassRandomDisk 3 1 4 1 [(0, 0), (1 / 2, 0)] = some (.ok [⟨3, ![0, 2, 0]⟩]) := by
  have e0 : ![0, 4 * (0 : ℝ), 4 * 0] ∉ planeAnnulus 1 4 := by simp [planeAnnulus]
  have e1 : ![0, 4 * (1 / 2 : ℝ), 4 * 0] ∈ planeAnnulus 1 4 := by
    have : Real.sqrt ((4 * (1 / 2 : ℝ)) ^ 2 + (4 * 0) ^ 2) = 2 := by
      rw [show (4 * (1 / 2 : ℝ)) ^ 2 + (4 * 0) ^ 2 = 2 ^ 2 by norm_num, Real.sqrt_sq (by norm_num)]
    simp only [planeAnnulus, Set.mem_setOf_eq, Matrix.cons_val, this]
    norm_num
  rw [(C94_disk 3 1 4 1 _).2 (by norm_num) (by norm_num)]
  simp only [List.map_cons, List.map_nil, List.filter_cons, e0, e1, decide_false, decide_true, if_true, List.filter_nil,
    Bool.false_eq_true, if_false]
  simp
  norm_num

example : Shp.sphericalRandomShell 2 3 [(0, 1 / 2)] = .ok (Oct.genPointMassSphericalRandomShell 2 3 [(0, 1 / 2)]) :=
  C94_shell 2 3 _ ⟨(0, 1 / 2), by simp, by norm_num⟩

end Newt
