import Verif.Props.RandomShell

/-!
# C102: the flat random sources of the Octave implementation
-/

namespace Newt

open MeasureTheory Filter Topology Spec ProbabilityTheory

variable {Ω : Type*} [MeasurableSpace Ω] {P : Measure Ω} {X : ℕ → Ω → ℝ × ℝ}

theorem sheet_support (M : ℝ) {B : Set (ℝ × ℝ)} (hB : IsCompact B) : ∀ p ∈ Body.sheet M B hB, p.mu (inPlane '' B)ᶜ = 0 := by
  intro p hp
  simp only [Body.sheet, List.mem_singleton] at hp
  subst hp
  have hK : IsCompact (inPlane '' B) := hB.image continuous_inPlane
  change (volume.restrict B).map inPlane _ = 0
  rw [Measure.map_apply continuous_inPlane.measurable hK.isClosed.measurableSet.compl,
    Measure.restrict_apply (continuous_inPlane.measurable hK.isClosed.measurableSet.compl)]
  have : inPlane ⁻¹' (inPlane '' B)ᶜ ∩ B = ∅ := by
    ext p; simp only [Set.mem_inter_iff, Set.mem_preimage, Set.mem_compl_iff, Set.mem_empty_iff_false, iff_false, not_and]
    intro h h'; exact h ⟨p, h', rfl⟩
  rw [this]; simp

theorem sheet_sumOver (M : ℝ) {B : Set (ℝ × ℝ)} (hB : IsCompact B) (f : V3 → ℝ) (hf : Continuous f) :
    (Body.sheet M B hB).sumOver f = M / (volume B).toReal * ∫ q in B, f (inPlane q) := by
  simp only [Body.sumOver, Body.sheet, List.map_cons, List.map_nil, List.sum_cons, List.sum_nil, add_zero]
  rw [integral_map continuous_inPlane.aemeasurable hf.aestronglyMeasurable]

/-! ## The disc -/

/-- The test of the disc generator. -/
def diskTest (i o : ℝ) (t : ℝ × ℝ) : Prop := i / o ≤ Real.sqrt (t.1 ^ 2 + t.2 ^ 2) ∧ Real.sqrt (t.1 ^ 2 + t.2 ^ 2) ≤ 1

theorem disk_sub (i o : ℝ) : {t | diskTest i o t} ⊆ square := by
  intro q hq
  have h1 : |q.1| ≤ 1 := (Real.abs_le_sqrt (by nlinarith [sq_nonneg q.2])).trans hq.2
  have h2 : |q.2| ≤ 1 := (Real.abs_le_sqrt (by nlinarith [sq_nonneg q.1])).trans hq.2
  exact ⟨abs_le.1 h1, abs_le.1 h2⟩

theorem disk_meas (i o : ℝ) : MeasurableSet {t | diskTest i o t} :=
  ((isClosed_le (f := fun _ : ℝ × ℝ => i / o) (g := fun q : ℝ × ℝ => Real.sqrt (q.1 ^ 2 + q.2 ^ 2)) continuous_const
      (by fun_prop)).inter (isClosed_le (f := fun q : ℝ × ℝ => Real.sqrt (q.1 ^ 2 + q.2 ^ 2)) (g := fun _ : ℝ × ℝ => 1)
      (by fun_prop) continuous_const)).measurableSet

open scoped Pointwise in
theorem disk_smul {i o : ℝ} (ho : 0 < o) : o • {t | diskTest i o t} = annulus2 i o := by
  ext q
  rw [Set.mem_smul_set_iff_inv_smul_mem₀ ho.ne']
  have hs : Real.sqrt ((o⁻¹ • q).1 ^ 2 + (o⁻¹ • q).2 ^ 2) = Real.sqrt (q.1 ^ 2 + q.2 ^ 2) / o := by
    simp only [Prod.smul_fst, Prod.smul_snd, smul_eq_mul]
    rw [show (o⁻¹ * q.1) ^ 2 + (o⁻¹ * q.2) ^ 2 = (q.1 ^ 2 + q.2 ^ 2) / o ^ 2 by field_simp, Real.sqrt_div (by positivity),
      Real.sqrt_sq ho.le]
  change (i / o ≤ _ ∧ _ ≤ 1) ↔ (i ≤ _ ∧ _ ≤ o)
  rw [hs, div_le_div_iff_of_pos_right ho, div_le_one ho]

theorem disk_integral {i o : ℝ} (ho : 0 < o) (f : ℝ × ℝ → ℝ) :
    ∫ t in {t | diskTest i o t}, f (o • t) = (o ^ 2)⁻¹ * ∫ q in annulus2 i o, f q := by
  have h := Measure.setIntegral_comp_smul_of_pos (volume : Measure (ℝ × ℝ)) f {t | diskTest i o t} ho
  rw [disk_smul ho] at h
  rw [h, smul_eq_mul]
  simp

theorem annulus2_pos {i o : ℝ} (hi : 0 ≤ i) (hio : i < o) : 0 < (volume (annulus2 i o)).toReal := by
  apply ENNReal.toReal_pos _ (annulus2_compact i o).measure_lt_top.ne
  have hopen : IsOpen {q : ℝ × ℝ | i < Real.sqrt (q.1 ^ 2 + q.2 ^ 2) ∧ Real.sqrt (q.1 ^ 2 + q.2 ^ 2) < o} :=
    (isOpen_lt (f := fun _ : ℝ × ℝ => i) (g := fun q : ℝ × ℝ => Real.sqrt (q.1 ^ 2 + q.2 ^ 2)) continuous_const
      (by fun_prop)).inter (isOpen_lt (f := fun q : ℝ × ℝ => Real.sqrt (q.1 ^ 2 + q.2 ^ 2)) (g := fun _ : ℝ × ℝ => o)
      (by fun_prop) continuous_const)
  have hne : {q : ℝ × ℝ | i < Real.sqrt (q.1 ^ 2 + q.2 ^ 2) ∧ Real.sqrt (q.1 ^ 2 + q.2 ^ 2) < o}.Nonempty := by
    refine ⟨((i + o) / 2, 0), ?_⟩
    change i < Real.sqrt (((i + o) / 2) ^ 2 + 0 ^ 2) ∧ Real.sqrt (((i + o) / 2) ^ 2 + 0 ^ 2) < o
    rw [show ((i + o) / 2) ^ 2 + (0 : ℝ) ^ 2 = ((i + o) / 2) ^ 2 by ring, Real.sqrt_sq (by linarith)]
    constructor <;> linarith
  have := hopen.measure_pos volume hne
  intro h0
  refine this.ne' (measure_mono_null ?_ h0)
  intro q hq
  exact ⟨hq.1.le, hq.2.le⟩

theorem uniform_square_sub {D : Set (ℝ × ℝ)} (hD : MeasurableSet D) (hs : D ⊆ square) : uniformLaw square D = 4⁻¹ * volume D := by
  rw [uniformLaw, Measure.smul_apply, square_volume, smul_eq_mul, Measure.restrict_apply hD, Set.inter_eq_left.2 hs]

theorem kept_prefix {α : Type*} (p : α → Bool) (f : ℕ → α) (n N : ℕ) (h : N ≤ (((List.range n).map f).filter p).length) :
    ∃ n' ≤ n, (((List.range n).map f).filter p).take N = ((List.range n').map f).filter p ∧
      (((List.range n').map f).filter p).length = N := by
  induction n with
  | zero =>
    refine ⟨0, le_rfl, ?_⟩
    simp at h
    simp [h]
  | succ n ih =>
    by_cases h' : N ≤ (((List.range n).map f).filter p).length
    · obtain ⟨n', h1, h2, h3⟩ := ih h'
      refine ⟨n', by omega, ?_, h3⟩
      rw [List.range_succ, List.map_append, List.filter_append, List.take_append_of_le_length h', h2]
    · have hl : (((List.range (n + 1)).map f).filter p).length = N := by
        refine le_antisymm ?_ h
        rw [List.range_succ, List.map_append, List.filter_append, List.length_append]
        have : ((([n] : List ℕ).map f).filter p).length ≤ 1 := by
          refine (List.length_filter_le _ _).trans ?_
          simp
        omega
      exact ⟨n + 1, le_rfl, by rw [List.take_of_length_le hl.le], hl⟩

/-- C102: with uniform random pairs the loop of `genPointMassRandomDisk` almost surely ends whatever the number of points,
and the arrays (total mass `M`) become the uniform annulus in the plane `x = 0`. -/
theorem C102_octave_disk (hX : UniformDraws P X square) (M i o : ℝ) (hi : 0 ≤ i) (hio : i < o) :
    ∀ᵐ ω ∂P, (∀ (m : ℝ) (N : ℕ), ∃ n A, Oct.genPointMassRandomDisk m i o N (drawn X n ω) = some (.ok A)) ∧
      ∀ (n : ℕ → ℕ) (A : ℕ → PtArray),
        (∀ N : ℕ, Oct.genPointMassRandomDisk (M / N) i o N (drawn X (n N) ω) = some (.ok (A N))) →
        Tracks atTop A (Body.sheet M (annulus2 i o) (annulus2_compact i o)) (inPlane '' annulus2 i o) := by
  classical
  have ho : 0 < o := by linarith
  set D := {t | diskTest i o t} with hD
  have hvol : (volume D).toReal = (o ^ 2)⁻¹ * (volume (annulus2 i o)).toReal := by
    have h := disk_integral (i := i) ho fun _ => 1
    simpa [setIntegral_const, measureReal_def] using h
  have hpos := annulus2_pos hi hio
  have hlaw : (uniformLaw square D).toReal = 4⁻¹ * (volume D).toReal := by
    rw [uniform_square_sub (disk_meas i o) (disk_sub i o), ENNReal.toReal_mul, ENNReal.toReal_inv, ENNReal.toReal_ofNat, hD]
  have h := draws_track hX (by rw [square_volume]; norm_num) (by rw [square_volume]; norm_num)
    (diskTest i o) (disk_meas i o) (by rw [← hD, hlaw, hvol]; positivity) (fun t => inPlane (o • t))
    (continuous_inPlane.comp (continuous_const_smul o)).measurable (inPlane '' annulus2 i o)
    ((annulus2_compact i o).image continuous_inPlane) (fun t ht => ⟨o • t, by rw [← disk_smul ho]; exact Set.smul_mem_smul_set ht, rfl⟩) M
    (Body.sheet M (annulus2 i o) (annulus2_compact i o)) (sheet_support M _)
    (fun f hf _ => by
      rw [sheet_sumOver _ _ _ hf, ← hD, hlaw, hvol, uniformLaw, Measure.restrict_smul, integral_smul_measure, square_volume,
        Measure.restrict_restrict (disk_meas i o), Set.inter_eq_left.2 (disk_sub i o), disk_integral ho (fun q => f (inPlane q)),
        smul_eq_mul]
      simp only [ENNReal.toReal_inv, ENNReal.toReal_ofNat]
      field_simp)
  have hgen : ∀ (m : ℝ) (N : ℕ) (draws : List (ℝ × ℝ)), Oct.genPointMassRandomDisk m i o N draws =
      if (draws.filter fun t => decide (diskTest i o t)).length < N then none
      else some (.ok (((draws.filter fun t => decide (diskTest i o t)).take N).map fun t => ⟨m, ![0, t.1 * o, t.2 * o]⟩)) := by
    intro m N draws
    rw [Oct.genPointMassRandomDisk, if_neg (by push Not; exact ⟨hi, ho.le⟩), if_neg (not_le.2 hio)]
    have e : ∀ l l' : List (ℝ × ℝ), l = l' →
        (if l.length < N then none else some (Oct.Ret.ok ((l.take N).map fun t => ⟨m, ![0, t.1 * o, t.2 * o]⟩))) =
        (if l'.length < N then none else some (Oct.Ret.ok ((l'.take N).map fun t => ⟨m, ![0, t.1 * o, t.2 * o]⟩))) := by
      rintro l _ rfl; rfl
    exact e _ _ (List.filter_congr fun t _ => decide_eq_decide.2 Iff.rfl)
  have hfreq : ∀ᵐ ω ∂P, ∀ N : ℕ, ∃ n, N ≤ ((drawn X n ω).filter fun t => decide (diskTest i o t)).length := by
    have a1 := draws_average hX (by rw [square_volume]; norm_num) (by rw [square_volume]; norm_num)
      (Set.indicator D fun _ => (1 : ℝ)) (measurable_const.indicator (disk_meas i o)) 1 (fun p => by
        rw [Set.indicator_apply]; split_ifs <;> simp)
    rw [integral_indicator (disk_meas i o), setIntegral_const, smul_eq_mul, mul_one] at a1
    filter_upwards [a1] with ω hω N
    have hlim : 0 < (uniformLaw square).real D := by rw [measureReal_def, hlaw, hvol]; positivity
    have hlen : ∀ n, (((drawn X n ω).filter fun p => decide (diskTest i o p)).length : ℝ) =
        ∑ k ∈ Finset.range n, Set.indicator D (fun _ => (1 : ℝ)) (X k ω) := by
      intro n
      have : (((drawn X n ω).filter fun p => decide (diskTest i o p)).length : ℝ) =
          (((drawn X n ω).filter fun p => decide (diskTest i o p)).map fun _ => (1 : ℝ)).sum := by simp
      rw [this, filter_map_sum, drawn, List.map_map]
      change ∑ i ∈ Finset.range n, _ = _
      refine Finset.sum_congr rfl fun k _ => ?_
      simp only [Function.comp, Set.indicator_apply, hD, Set.mem_ofPred_eq]
    have h2 : Tendsto (fun n : ℕ => (((drawn X n ω).filter fun p => decide (diskTest i o p)).length : ℝ)) atTop atTop := by
      have := hω.pos_mul_atTop hlim tendsto_natCast_atTop_atTop
      refine this.congr' ?_
      filter_upwards [eventually_gt_atTop 0] with n hn
      rw [hlen, div_mul_cancel₀]
      exact_mod_cast hn.ne'
    obtain ⟨n, hn⟩ := (h2.eventually_ge_atTop (N : ℝ)).exists
    exact ⟨n, by exact_mod_cast hn⟩
  filter_upwards [h, hfreq] with ω hω hf
  refine ⟨fun m N => ?_, fun n A hA => ?_⟩
  · obtain ⟨n, hn⟩ := hf N
    exact ⟨n, _, by rw [hgen, if_neg (not_lt.2 hn)]⟩
  · have hex : ∀ N : ℕ, ∃ n', A N = keptArr M (fun t => inPlane (o • t)) ((drawn X n' ω).filter fun p => decide (diskTest i o p)) ∧ N ≤ n' := by
      intro N
      have hA' := hA N
      rw [hgen] at hA'
      split_ifs at hA' with hlt
      simp only [Option.some.injEq, Oct.Ret.ok.injEq] at hA'
      obtain ⟨n', -, h2, h3⟩ := kept_prefix (fun p => decide (diskTest i o p)) (fun k => X k ω) (n N) N (not_lt.1 hlt)
      refine ⟨n', ?_, ?_⟩
      · rw [← hA', drawn, h2, keptArr, drawn, h3]
        refine List.map_congr_left fun t _ => ?_
        congr 1
        simp only [inPlane, Prod.smul_fst, Prod.smul_snd, smul_eq_mul, mul_comm o]
      · rw [← h3]
        refine (List.length_filter_le _ _).trans ?_
        simp
    choose n' hn' hN using hex
    have ht : Tendsto n' atTop atTop := tendsto_atTop_mono hN tendsto_id
    have hA2 : A = fun N => keptArr M (fun t => inPlane (o • t)) ((drawn X (n' N) ω).filter fun p => decide (diskTest i o p)) := funext hn'
    rw [hA2]
    refine ⟨ht.eventually hω.2.inside, ?_, hω.2.support, fun f hf => (hω.2.tends f hf).comp ht⟩
    obtain ⟨C, hC⟩ := hω.2.bounded
    exact ⟨C, ht.eventually hC⟩

/-! ## The rectangle -/

theorem unitSquare_volume : volume unitSquare = 1 := by
  rw [unitSquare, show (volume : Measure (ℝ × ℝ)) = volume.prod volume from rfl, Measure.prod_prod, Real.volume_Icc]
  norm_num

theorem unitSquare_meas : MeasurableSet unitSquare := measurableSet_Icc.prod measurableSet_Icc

theorem uniform_unitSquare : uniformLaw unitSquare = volume.restrict unitSquare := by
  rw [uniformLaw, unitSquare_volume, inv_one, one_smul]

theorem rect_integral {y z : ℝ} (hy : 0 < y) (hz : 0 < z) (f : ℝ × ℝ → ℝ) (hf : Continuous f) :
    ∫ p in unitSquare, f (y * (p.1 - 1 / 2), z * (p.2 - 1 / 2)) = (y * z)⁻¹ * ∫ q in rect2 y z, f q := by
  have h1 : IntegrableOn (fun p : ℝ × ℝ => f (y * (p.1 - 1 / 2), z * (p.2 - 1 / 2))) (Set.Icc 0 1 ×ˢ Set.Icc 0 1) (volume.prod volume) :=
    (hf.comp (by fun_prop : Continuous fun p : ℝ × ℝ => (y * (p.1 - 1 / 2), z * (p.2 - 1 / 2)))).continuousOn.integrableOn_compact
      (isCompact_Icc.prod isCompact_Icc)
  have h2 : IntegrableOn f (Set.Icc (-(y / 2)) (y / 2) ×ˢ Set.Icc (-(z / 2)) (z / 2)) (volume.prod volume) :=
    hf.continuousOn.integrableOn_compact (isCompact_Icc.prod isCompact_Icc)
  rw [unitSquare, rect2, show (volume : Measure (ℝ × ℝ)) = volume.prod volume from rfl, setIntegral_prod _ h1, setIntegral_prod _ h2]
  have e : ∀ (g : ℝ → ℝ) (a b : ℝ), a ≤ b → ∫ x in Set.Icc a b, g x = ∫ x in a..b, g x := fun g a b h => by
    rw [intervalIntegral.integral_of_le h, integral_Icc_eq_integral_Ioc]
  have s : ∀ (g : ℝ → ℝ) (c : ℝ), 0 < c → ∫ x in (0 : ℝ)..1, g (c * (x - 1 / 2)) = c⁻¹ * ∫ x in (-(c / 2))..(c / 2), g x := by
    intro g c hc
    have h := intervalIntegral.integral_comp_mul_sub (a := 0) (b := 1) g hc.ne' (c / 2)
    rw [smul_eq_mul, show c * 0 - c / 2 = -(c / 2) by ring, show c * 1 - c / 2 = c / 2 by ring] at h
    rw [← h]
    refine intervalIntegral.integral_congr fun x _ => ?_
    change g _ = g _
    congr 1; ring
  rw [e _ _ _ zero_le_one, e _ _ _ (by linarith)]
  have hin : ∀ a : ℝ, ∫ b in Set.Icc (0 : ℝ) 1, f (y * (a - 1 / 2), z * (b - 1 / 2)) =
      z⁻¹ * ∫ b in Set.Icc (-(z / 2)) (z / 2), f (y * (a - 1 / 2), b) := fun a => by
    rw [e _ _ _ zero_le_one, s (fun b => f (y * (a - 1 / 2), b)) z hz, e _ _ _ (by linarith)]
  simp only [hin]
  rw [s (fun a => z⁻¹ * ∫ b in Set.Icc (-(z / 2)) (z / 2), f (a, b)) y hy, intervalIntegral.integral_const_mul, mul_inv]
  ring

theorem rect_volume {y z : ℝ} (hy : 0 < y) (hz : 0 < z) : (volume (rect2 y z)).toReal = y * z := by
  rw [rect2, show (volume : Measure (ℝ × ℝ)) = volume.prod volume from rfl, Measure.prod_prod, Real.volume_Icc, Real.volume_Icc,
    ENNReal.toReal_mul, ENNReal.toReal_ofReal (by linarith), ENNReal.toReal_ofReal (by linarith)]
  ring

/-- C102: with uniform random pairs the arrays of `genPointMassRandomRectangle` (total mass `M`) become the uniform
rectangle with sides `y` and `z` in the plane `x = 0`. -/
theorem C102_octave_rectangle (hX : UniformDraws P X unitSquare) (M y z : ℝ) (hy : 0 < y) (hz : 0 < z) :
    ∀ᵐ ω ∂P, ∃ A : ℕ → PtArray,
      (∀ n : ℕ, Oct.genPointMassRandomRectangle (M / n) y z (drawn X n ω) = .ok (A n)) ∧
        Tracks atTop A (Body.sheet M (rect2 y z) (rect2_compact y z)) (inPlane '' rect2 y z) := by
  classical
  have hlaw : (uniformLaw unitSquare unitSquare).toReal = 1 := by
    rw [uniform_unitSquare, Measure.restrict_apply_self, unitSquare_volume]; rfl
  have h := draws_track hX (by rw [unitSquare_volume]; norm_num) (by rw [unitSquare_volume]; norm_num)
    (fun t => t ∈ unitSquare) unitSquare_meas (by
      change 0 < (uniformLaw unitSquare unitSquare).toReal
      rw [hlaw]; norm_num) (fun t => inPlane (y * (t.1 - 1 / 2), z * (t.2 - 1 / 2)))
    (continuous_inPlane.comp (by fun_prop)).measurable (inPlane '' rect2 y z)
    ((rect2_compact y z).image continuous_inPlane) (fun t ht => ⟨_, by
      obtain ⟨⟨a1, a2⟩, b1, b2⟩ := ht
      constructor <;> constructor <;> dsimp only <;> nlinarith, rfl⟩) M
    (Body.sheet M (rect2 y z) (rect2_compact y z)) (sheet_support M _)
    (fun f hf _ => by
      rw [sheet_sumOver _ _ _ hf, rect_volume hy hz]
      change _ = M * ((∫ t in unitSquare, _ ∂uniformLaw unitSquare) / (uniformLaw unitSquare unitSquare).toReal)
      rw [hlaw, uniform_unitSquare, Measure.restrict_restrict unitSquare_meas, Set.inter_self,
        rect_integral hy hz (fun q => f (inPlane q)) (hf.comp continuous_inPlane)]
      field_simp)
  have hin : ∀ᵐ ω ∂P, ∀ k, X k ω ∈ unitSquare := by
    rw [ae_all_iff]
    intro k
    have h0 : P.map (X k) unitSquareᶜ = 0 := by
      rw [hX.law, uniform_unitSquare, Measure.restrict_apply unitSquare_meas.compl]; simp
    rw [Measure.map_apply (hX.meas k) unitSquare_meas.compl] at h0
    exact h0
  filter_upwards [h, hin] with ω hω hk
  refine ⟨_, fun n => ?_, hω.2⟩
  have hall : (drawn X n ω).filter (fun p => decide (p ∈ unitSquare)) = drawn X n ω := by
    rw [List.filter_eq_self]
    intro t ht
    obtain ⟨k, -, rfl⟩ := List.mem_map.1 ht
    exact decide_eq_true (hk k)
  have hlen : (drawn X n ω).length = n := by simp [drawn]
  rw [(C94_rectangle (M / n) y z (drawn X n ω)).2.1 hy.le hz.le, hall, keptArr, hlen]
  rfl

/-- A disc with a hole and a rectangle, with draws that exist. -/
example : ∀ᵐ ω ∂(Measure.infinitePi fun _ : ℕ => uniformLaw square), ∀ (n : ℕ → ℕ) (A : ℕ → PtArray),
    (∀ N : ℕ, Oct.genPointMassRandomDisk (5 / N) 1 2 N (drawn (fun k ω => ω k) (n N) ω) = some (.ok (A N))) →
    Tracks atTop A (Body.sheet 5 (annulus2 1 2) (annulus2_compact 1 2)) (inPlane '' annulus2 1 2) := by
  filter_upwards [C102_octave_disk (uniformDraws_exist square (by rw [square_volume]; norm_num) (by rw [square_volume]; norm_num))
    5 1 2 zero_le_one one_lt_two] with ω h
  exact h.2

example : ∀ᵐ ω ∂(Measure.infinitePi fun _ : ℕ => uniformLaw unitSquare), ∃ A : ℕ → PtArray,
    (∀ n : ℕ, Oct.genPointMassRandomRectangle (5 / n) 2 3 (drawn (fun k ω => ω k) n ω) = .ok (A n)) ∧
      Tracks atTop A (Body.sheet 5 (rect2 2 3) (rect2_compact 2 3)) (inPlane '' rect2 2 3) :=
  C102_octave_rectangle (uniformDraws_exist unitSquare (by rw [unitSquare_volume]; norm_num) (by rw [unitSquare_volume]; norm_num))
    5 2 3 two_pos three_pos

end Newt
