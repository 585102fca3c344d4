import Verif.Proofs.ShellMeasure
import Verif.Props.Shell

/-!
# Moments of the uniform spherical shell and its field inside and outside
-/

namespace Newt

open MeasureTheory Filter Topology Spec

/-! ### Legendre polynomials have mean zero -/

/-- Derivative of `pz u 1 l` in `u`. -/
noncomputable def dpz (u : ℝ) : ℕ → ℝ
  | 0 => 0
  | 1 => 1
  | l + 2 => ((2 * l + 3) * (pz u 1 (l + 1) + u * dpz u (l + 1)) - (l + 1) * dpz u l) / (l + 2)

theorem hasDerivAt_pz (u : ℝ) (l : ℕ) : HasDerivAt (fun u => pz u 1 l) (dpz u l) u := by
  induction l using Nat.twoStepInduction with
  | zero => simpa [pz, dpz] using hasDerivAt_const u (1 : ℝ)
  | one =>
    have h := hasDerivAt_id' u
    simp only [pz, dpz]; exact h
  | more l h1 h2 =>
    have h := ((((hasDerivAt_id u).mul h2).const_mul (2 * (l : ℝ) + 3)).sub (h1.const_mul ((l : ℝ) + 1))).div_const ((l : ℝ) + 2)
    refine (h.congr_of_eventuallyEq (Eventually.of_forall fun x => ?_)).congr_deriv ?_
    · simp only [pz, id, Pi.mul_apply, Pi.sub_apply]; ring
    · simp only [dpz, id]; ring

theorem dpz_rec (u : ℝ) (l : ℕ) : dpz u (l + 1) = u * dpz u l + (l + 1) * pz u 1 l ∧
    u * dpz u (l + 1) - dpz u l = (l + 1) * pz u 1 (l + 1) := by
  induction l with
  | zero => simp [dpz, pz]
  | succ l ih =>
    obtain ⟨hA, hB⟩ := ih
    have h2 : (l : ℝ) + 2 ≠ 0 := by positivity
    have hp := pz_rec u 1 l
    have hd : ((l : ℝ) + 2) * dpz u (l + 2) = (2 * l + 3) * (pz u 1 (l + 1) + u * dpz u (l + 1)) - (l + 1) * dpz u l := by
      rw [dpz]; field_simp
    have hA' : dpz u (l + 2) = u * dpz u (l + 1) + (l + 2) * pz u 1 (l + 1) := by
      apply mul_left_cancel₀ h2
      rw [hd]; linear_combination (l + 1) * hB
    refine ⟨by push_cast; rw [hA']; ring, ?_⟩
    push_cast
    rw [hA']
    linear_combination (-1) * hA + u * hB - hp

theorem pz_one (l : ℕ) : pz 1 1 l = 1 := by
  induction l using Nat.twoStepInduction with
  | zero => rfl
  | one => rfl
  | more l h1 h2 =>
    have : (l : ℝ) + 2 ≠ 0 := by positivity
    rw [pz, h1, h2]; field_simp; ring

theorem pz_neg_one (l : ℕ) : pz (-1) 1 l = (-1) ^ l := by
  induction l using Nat.twoStepInduction with
  | zero => simp [pz]
  | one => simp [pz]
  | more l h1 h2 =>
    have : (l : ℝ) + 2 ≠ 0 := by positivity
    rw [pz, h1, h2, pow_succ, pow_succ]; field_simp; ring

theorem continuous_pz (l : ℕ) : Continuous fun u : ℝ => pz u 1 l :=
  continuous_iff_continuousAt.2 fun u => (hasDerivAt_pz u l).continuousAt

theorem int_pz (l : ℕ) (hl : 0 < l) : ∫ u in (-1 : ℝ)..1, pz u 1 l = 0 := by
  obtain ⟨l, rfl⟩ : ∃ k, l = k + 1 := ⟨l - 1, by omega⟩
  have hd : ∀ u : ℝ, HasDerivAt (fun u => pz u 1 (l + 2) - pz u 1 l) ((2 * l + 3) * pz u 1 (l + 1)) u := by
    intro u
    refine ((hasDerivAt_pz u (l + 2)).sub (hasDerivAt_pz u l)).congr_deriv ?_
    have h1 := (dpz_rec u (l + 1)).1
    have h2 := (dpz_rec u l).2
    push_cast at h1
    linear_combination h1 + h2
  have := intervalIntegral.integral_eq_sub_of_hasDerivAt (a := -1) (b := 1) (fun u _ => hd u)
    ((continuous_const.mul (continuous_pz (l + 1))).intervalIntegrable _ _)
  rw [intervalIntegral.integral_const_mul, pz_one, pz_one, pz_neg_one, pz_neg_one, pow_succ, pow_succ] at this
  have h3 : (2 * (l : ℝ) + 3) ≠ 0 := by positivity
  have h4 : (2 * (l : ℝ) + 3) * ∫ u in (-1 : ℝ)..1, pz u 1 (l + 1) = 0 := by rw [this]; ring
  exact (mul_eq_zero.1 h4).resolve_left h3

theorem pz_scale (c z w : ℝ) (l : ℕ) : pz (c * z) (c ^ 2 * w) l = c ^ l * pz z w l := by
  induction l using Nat.twoStepInduction with
  | zero => simp [pz]
  | one => simp [pz]
  | more l h1 h2 => rw [pz, pz, h1, h2]; ring

/-! ### The shell -/

theorem shellMap_nsq (r : ℝ) {p : ℝ × ℝ} (hp : p ∈ shellBox) : nsq (shellMap r p) = r ^ 2 := by
  have h1 : p.1 ^ 2 ≤ 1 := by
    have := hp.1; rw [Set.mem_Icc] at this; nlinarith
  have h2 : Real.sqrt (1 - p.1 ^ 2) ^ 2 = 1 - p.1 ^ 2 := Real.sq_sqrt (by linarith)
  have h3 := Real.sin_sq_add_cos_sq p.2
  simp only [nsq, shellMap, Matrix.cons_val]
  linear_combination (r ^ 2 * (Real.cos p.2 ^ 2 + Real.sin p.2 ^ 2)) * h2 + (r ^ 2 * (1 - p.1 ^ 2)) * h3

theorem shellMap_modulus {r : ℝ} (hr : 0 ≤ r) {p : ℝ × ℝ} (hp : p ∈ shellBox) : modulus (shellMap r p) = r := by
  rw [modulus_eq_sqrt, shellMap_nsq r hp, Real.sqrt_sq hr]

theorem shellBox_meas : MeasurableSet shellBox := measurableSet_Icc.prod measurableSet_Icc

theorem shell_null {r : ℝ} (hr : 0 ≤ r) {s : Set V3} (hs : MeasurableSet s) (h : ∀ v ∈ s, modulus v ≠ r) : shellMu r s = 0 := by
  rw [shellMu, Measure.smul_apply, smul_eq_mul, Measure.map_apply (continuous_shellMap r).measurable hs,
    Measure.restrict_apply ((continuous_shellMap r).measurable hs)]
  have : shellMap r ⁻¹' s ∩ shellBox = ∅ := by
    ext p
    simp only [Set.mem_inter_iff, Set.mem_preimage, Set.mem_empty_iff_false, iff_false, not_and]
    intro h1 h2
    exact h _ h1 (shellMap_modulus hr h2)
  rw [this]; simp

theorem shell_ae {r : ℝ} (hr : 0 ≤ r) : ∀ᵐ v ∂shellMu r, modulus v = r := by
  rw [ae_iff]
  exact shell_null hr (measurableSet_eq_fun modulus_continuous.measurable measurable_const).compl fun v hv => hv

theorem shell_mem {M r : ℝ} {p : Piece} (hp : p ∈ Body.shell M r) : p.rho = M ∧ p.mu = shellMu r := by
  simp only [Body.shell, List.mem_singleton] at hp
  subst hp
  exact ⟨rfl, rfl⟩

theorem shell_inBall (M : ℝ) {r : ℝ} (hr : 0 ≤ r) : (Body.shell M r).InBall r := by
  intro p hp
  rw [(shell_mem hp).2]
  exact shell_null hr (measurableSet_lt measurable_const modulus_continuous.measurable) fun v hv => ne_of_gt hv

theorem shell_offBall (M : ℝ) {r : ℝ} (hr : 0 ≤ r) : (Body.shell M r).OffBall r := by
  intro p hp
  rw [(shell_mem hp).2]
  exact shell_null hr (measurableSet_lt modulus_continuous.measurable measurable_const) fun v hv => ne_of_lt hv

theorem shellMap_rz (r u φ : ℝ) : shellMap r (u, φ) = rz φ (shellMap r (u, 0)) := by
  ext i
  fin_cases i <;> simp [shellMap, rz] <;> ring

theorem shell_solidS (r : ℝ) (l : ℕ) (m : ℤ) (hl : 0 < l) (hm : m.natAbs ≤ l) : ∫ v, solidS l m v ∂shellMu r = 0 := by
  rw [shellMu_integral r _ (continuous_solidS l m)]
  obtain ⟨J, hJ⟩ : ∃ J, J = ∫ u in (-1 : ℝ)..1, solidS l m (shellMap r (u, 0)) := ⟨_, rfl⟩
  have h1 : ∀ φ : ℝ, ∫ u in (-1 : ℝ)..1, solidS l m (shellMap r (u, φ)) =
      Complex.exp (-Complex.I * m * φ) * J := by
    intro φ
    rw [hJ, ← intervalIntegral.integral_const_mul]
    refine intervalIntegral.integral_congr fun u _ => ?_
    rw [shellMap_rz, solidS_rz]
  simp only [h1]
  rw [intervalIntegral.integral_mul_const]
  by_cases h0 : m = 0
  · subst h0
    have h2 : ∫ u in (-1 : ℝ)..1, solidS l 0 (shellMap r (u, 0)) = 0 := by
      have e : ∀ u ∈ Set.uIcc (-1 : ℝ) 1, solidS l 0 (shellMap r (u, 0)) =
          ((Nlm l 0 : ℂ) * (r : ℂ) ^ l / (l.factorial : ℂ)) * ((pz u 1 l : ℝ) : ℂ) := by
        intro u hu
        rw [Set.uIcc_of_le (by norm_num)] at hu
        have hb : (u, (0 : ℝ)) ∈ shellBox := ⟨hu, ⟨by linarith [Real.pi_pos], Real.pi_pos.le⟩⟩
        have hf : (l.factorial : ℂ) ≠ 0 := by exact_mod_cast l.factorial_ne_zero
        have hz := Rsol_zero_pz (shellMap r (u, 0)) l
        rw [shellMap_nsq r hb] at hz
        have hv : (shellMap r (u, 0)) 2 = r * u := by simp [shellMap]
        rw [hv, show r ^ 2 = r ^ 2 * 1 by ring, pz_scale] at hz
        rw [solidS]
        push_cast at hz
        field_simp
        linear_combination (Nlm l 0 : ℂ) * hz
      rw [intervalIntegral.integral_congr e, intervalIntegral.integral_const_mul, intervalIntegral.integral_ofReal, int_pz l hl]
      simp
    rw [hJ, h2]; simp
  · have hm' : (m : ℂ) ≠ 0 := by exact_mod_cast h0
    have h2 : ∫ φ in (-Real.pi)..Real.pi, Complex.exp (-Complex.I * m * φ) = 0 := by
      have hc : (-Complex.I * m : ℂ) ≠ 0 := mul_ne_zero (by simp) hm'
      rw [integral_exp_mul_complex hc]
      have : Complex.exp (-Complex.I * m * (Real.pi : ℝ)) = Complex.exp (-Complex.I * m * ((-Real.pi : ℝ) : ℂ)) := by
        rw [Complex.exp_eq_exp_iff_exists_int]
        refine ⟨-m, ?_⟩
        push_cast; ring
      rw [this, sub_self, zero_div]
    rw [h2]; simp

theorem shellMu_univ (r : ℝ) : shellMu r Set.univ = 1 := by
  have hpi := Real.pi_pos
  rw [shellMu, Measure.smul_apply, smul_eq_mul, Measure.map_apply (continuous_shellMap r).measurable MeasurableSet.univ,
    Set.preimage_univ, Measure.restrict_apply_univ, shellBox, show (volume : Measure (ℝ × ℝ)) = volume.prod volume from rfl,
    Measure.prod_prod, Real.volume_Icc, Real.volume_Icc, ← ENNReal.ofReal_mul (by norm_num)]
  rw [show ((1 : ℝ) - -1) * (Real.pi - -Real.pi) = 4 * Real.pi by ring]
  exact ENNReal.inv_mul_cancel (by simpa using hpi) ENNReal.ofReal_ne_top

instance (r : ℝ) : IsProbabilityMeasure (shellMu r) := ⟨shellMu_univ r⟩

theorem shell_inner (M r : ℝ) (l : ℕ) (m : ℤ) (hm : m.natAbs ≤ l) :
    (Body.shell M r).inner l m = (Body.points [⟨M, 0⟩]).inner l m := by
  have e1 : (Body.shell M r).inner l m = (M : ℂ) * ∫ v, solidS l m v ∂shellMu r := by
    simp [Body.inner, Body.shell, shellMu]
  have e2 : (Body.points [⟨M, 0⟩]).inner l m = (M : ℂ) * solidS l m 0 := by
    simp [Body.inner, Body.points, Piece.point]
  rw [e1, e2]
  congr 1
  rcases Nat.eq_zero_or_pos l with rfl | hl
  · have : m = 0 := by omega
    subst this
    simp [solidS_zero]
  · rw [shell_solidS r l m hl hm]
    have := innerMoment_origin [⟨1, 0⟩] (by simp) l (by omega) (m := m)
    simpa [innerMoment] using this.symm

theorem shell_outer (M : ℝ) {r : ℝ} (hr : 0 ≤ r) (l : ℕ) (m : ℤ) (hl : 0 < l) (hm : m.natAbs ≤ l) :
    (Body.shell M r).outer l m = 0 := by
  have e1 : (Body.shell M r).outer l m = (M : ℂ) * ∫ v, solidO l m v ∂shellMu r := by
    simp [Body.outer, Body.shell, shellMu]
  have e2 : ∫ v, solidO l m v ∂shellMu r = ∫ v, (starRingEnd ℂ) (solidS l m v) / ((r ^ (2 * l + 1) : ℝ) : ℂ) ∂shellMu r := by
    refine integral_congr_ae ?_
    filter_upwards [shell_ae hr] with v hv
    rw [solidO, hv]
  rw [e1, e2, integral_div, integral_conj, shell_solidS r l m hl hm]
  simp

theorem inner_zero_translate (b : Body) (w : V3) : (b.translate w).inner 0 0 = b.inner 0 0 := by
  simp only [Body.inner, Body.translate, List.map_map]
  congr 1
  refine List.map_congr_left fun p _ => ?_
  simp only [Function.comp, Piece.move]
  congr 1
  rw [integral_map (by fun_prop) (continuous_solidS 0 0).aestronglyMeasurable]
  simp only [solidS_zero_zero]

/-- No force inside the shell. -/
theorem shell_force_inside (M : ℝ) {r a : ℝ} (ha : 0 ≤ a) (har : a < r) (b : Body) (hb : b.InBall a) (i : Fin 3) :
    b.force BIG_G (Body.shell M r) i = 0 := by
  have hr : 0 ≤ r := by linarith
  set c := Body.shell M r with hc
  have hF : ∀ L, 1 ≤ L → multipole_force (Mom.ofFn L b.inner) (Mom.ofFn L c.outer) ((0 : V3) 0) ((0 : V3) 1) ((0 : V3) 2) BIG_G
      = some (fun _ => 0) := by
    intro L hL
    obtain ⟨F, f, E, h1, h2, h3, h4⟩ := C33_force_is_gradient (Mom.ofFn L b.inner) (Mom.ofFn L c.outer)
      (Body.inner_valid L b) (Body.outer_valid L c) 0 BIG_G (Or.inl hL)
    rw [h1, Option.some.injEq]
    have hE : ∀ v, E v = E 0 := by
      intro v
      have key : ∀ v, multipoleEnergy BIG_G (translate_qlm (Mom.ofFn L b.inner) v) (Mom.ofFn L c.outer) =
          ((-4 * Real.pi * BIG_G : ℝ) : ℂ) * (b.inner 0 0 * c.outer 0 0) := by
        intro v
        rw [multipoleEnergy, pairSum, C56_translate]
        congr 1
        rw [Finset.sum_eq_single 0]
        · simp only [Nat.cast_zero, neg_zero, Finset.Icc_self, Finset.sum_singleton]
          rw [Mom.get_ofFn _ (Nat.zero_le _) (by simp), Mom.get_ofFn _ (Nat.zero_le _) (by simp), inner_zero_translate]
          simp
        · intro l hl hl0
          rw [Finset.mem_range] at hl
          refine Finset.sum_eq_zero fun m hm => ?_
          rw [Finset.mem_Icc] at hm
          rw [Mom.get_ofFn c.outer (by omega) (by omega), hc, shell_outer M hr l m (by omega) (by omega)]
          simp
        · simp
      have := (h3 v).trans ((key v).trans ((key 0).symm.trans (h3 0).symm))
      exact_mod_cast this
    funext j
    have h5 := h4 j
    simp only [hE] at h5
    have h6 := h5.unique (hasDerivAt_const _ _)
    rw [h2 j]
    have : f j = 0 := by linarith
    rw [this]; simp
  have h := C80_force_converges b c 0 a r ha har (by rwa [translate_zero_body]) (shell_offBall M hr) (fun _ _ => 0) hF i
  rw [translate_zero_body] at h
  exact_mod_cast (tendsto_nhds_unique tendsto_const_nhds h).symm

theorem point_force_shell (x : V3) (M r : ℝ) (i : Fin 3) :
    (Body.points [⟨1, x⟩]).force BIG_G (Body.shell M r) i = BIG_G * M * ∫ y, (y - x) i / modulus (y - x) ^ 3 ∂shellMu r := by
  simp [Body.force, Body.points, Piece.point, Body.shell, shellMu]

theorem points_single_inBall (m : ℝ) (x : V3) : (Body.points [⟨m, x⟩]).InBall (modulus x) := by
  intro p hp
  simp only [Body.points, List.map_cons, List.map_nil, List.mem_singleton] at hp
  subst hp
  change Measure.dirac x _ = 0
  rw [Measure.dirac_apply' _ (measurableSet_lt measurable_const modulus_continuous.measurable)]
  simp

theorem points_single_offBall (m : ℝ) (x : V3) : (Body.points [⟨m, x⟩]).OffBall (modulus x) := by
  intro p hp
  simp only [Body.points, List.map_cons, List.map_nil, List.mem_singleton] at hp
  subst hp
  change Measure.dirac x _ = 0
  rw [Measure.dirac_apply' _ (measurableSet_lt modulus_continuous.measurable measurable_const)]
  simp

/-- The attraction of the shell at a point inside vanishes. -/
theorem shell_field_inside {r : ℝ} {x : V3} (hx : modulus x < r) (i : Fin 3) :
    ∫ y, (y - x) i / modulus (y - x) ^ 3 ∂shellMu r = 0 := by
  have h := shell_force_inside 1 (modulus_nonneg x) hx (Body.points [⟨1, x⟩]) (points_single_inBall 1 x) i
  rw [point_force_shell, mul_one] at h
  exact (mul_eq_zero.1 h).resolve_left (by norm_num [BIG_G])

/-- The attraction of the shell at a point outside is that of its mass at the centre. -/
theorem shell_field_outside {r : ℝ} (hr : 0 ≤ r) {x : V3} (hx : r < modulus x) (i : Fin 3) :
    ∫ y, (y - x) i / modulus (y - x) ^ 3 ∂shellMu r = -x i / modulus x ^ 3 := by
  have h := (C89_moments_determine (fun l m hm => shell_inner 1 r l m hm) hr hx (shell_inBall 1 hr)
    (by
      have := points_single_inBall 1 (0 : V3)
      rw [(modulus_eq_zero 0).2 rfl] at this
      intro p hp
      refine measure_mono_null ?_ (this p hp)
      intro v hv
      exact lt_of_le_of_lt hr hv) (points_single_offBall 1 x)).2.1 i
  have e1 : (Body.shell 1 r).force BIG_G (Body.points [⟨1, x⟩]) i = BIG_G * ∫ y, (x - y) i / modulus (x - y) ^ 3 ∂shellMu r := by
    simp [Body.force, Body.points, Piece.point, Body.shell, shellMu]
  have e2 : (Body.points [⟨1, (0 : V3)⟩]).force BIG_G (Body.points [⟨1, x⟩]) i = BIG_G * (x i / modulus x ^ 3) := by
    simp [Body.force, Body.points, Piece.point]
  rw [e1, e2] at h
  have h' := mul_left_cancel₀ (by norm_num [BIG_G] : BIG_G ≠ 0) h
  have e3 : (fun y : V3 => (y - x) i / modulus (y - x) ^ 3) = fun y => -((x - y) i / modulus (x - y) ^ 3) := by
    funext y
    rw [modulus_sub_comm x y, ← neg_div]
    congr 1
    simp
  rw [e3, integral_neg, h']
  ring

/-- The field is bounded away from the shell, so it can be multiplied by constants componentwise. -/
theorem shell_field_integrable {r : ℝ} (hr : 0 ≤ r) {x : V3} (hx : modulus x ≠ r) (i : Fin 3) :
    Integrable (fun y : V3 => (y - x) i / modulus (y - x) ^ 3) (shellMu r) := by
  have hK : IsCompact {v : V3 | modulus v = r} :=
    (ball_compact r).of_isClosed_subset (isClosed_eq modulus_continuous continuous_const) fun v hv => le_of_eq hv
  have hres : (shellMu r).restrict {v : V3 | modulus v = r} = shellMu r := Measure.restrict_eq_self_of_ae_mem (shell_ae hr)
  rw [← hres]
  have hc : ContinuousOn (fun y : V3 => (y - x) i / modulus (y - x) ^ 3) {v : V3 | modulus v = r} := ?_
  · exact hc.integrableOn_compact hK
  refine ContinuousOn.div (f := fun y : V3 => (y - x) i) (g := fun y : V3 => modulus (y - x) ^ 3) (by fun_prop) ((modulus_continuous.comp (by fun_prop)).pow 3).continuousOn fun y hy => ?_
  refine pow_ne_zero _ fun h => hx ?_
  have : y = x := sub_eq_zero.1 ((modulus_eq_zero _).1 h)
  rw [← this]; exact hy

theorem shell_torque_field {r : ℝ} (hr : 0 ≤ r) {x : V3} (hx : modulus x ≠ r) (i : Fin 3) :
    ∫ y, (crossProduct x (y - x)) i / modulus (y - x) ^ 3 ∂shellMu r =
      (crossProduct x fun j => ∫ y, (y - x) j / modulus (y - x) ^ 3 ∂shellMu r) i := by
  have hI := shell_field_integrable hr hx
  have key : ∀ a b : Fin 3, ∀ u w : ℝ, (∀ z : V3, (crossProduct x z) i = u * z a - w * z b) →
      ∫ y, (crossProduct x (y - x)) i / modulus (y - x) ^ 3 ∂shellMu r =
        (crossProduct x fun j => ∫ y, (y - x) j / modulus (y - x) ^ 3 ∂shellMu r) i := by
    intro a b u w h
    rw [h, ← integral_const_mul, ← integral_const_mul, ← integral_sub ((hI a).const_mul u) ((hI b).const_mul w)]
    congr 1
    funext y
    rw [h]; ring
  fin_cases i
  · exact key 2 1 (x 1) (x 2) fun z => by simp [cross_apply]
  · exact key 0 2 (x 2) (x 0) fun z => by simp [cross_apply]
  · exact key 1 0 (x 0) (x 1) fun z => by simp [cross_apply]

end Newt
