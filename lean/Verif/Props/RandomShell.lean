import Verif.Proofs.RandomTracks
import Verif.Proofs.ShellTheorem
import Verif.Props.GlibBodies
import Verif.Props.GlibShapes
import Verif.Props.OctaveShapes
import Mathlib.Probability.Independence.InfinitePi

/-!
# C102: random shells and the shell theorem
-/

namespace Newt

open MeasureTheory Filter Topology Spec ProbabilityTheory

variable {Ω : Type*} [MeasurableSpace Ω] {P : Measure Ω} {X : ℕ → Ω → ℝ × ℝ}

theorem shell_compact (r : ℝ) : IsCompact (shell r) :=
  (ball_compact r).of_isClosed_subset (isClosed_eq modulus_continuous continuous_const) fun _ hv => le_of_eq hv

theorem square_volume : volume square = 4 := by
  rw [square, show (volume : Measure (ℝ × ℝ)) = volume.prod volume from rfl, Measure.prod_prod, Real.volume_Icc,
    ← ENNReal.ofReal_mul (by norm_num)]
  norm_num

theorem marsaglia_modulus {r : ℝ} (hr : 0 ≤ r) {p : ℝ × ℝ} (hp : p.1 ^ 2 + p.2 ^ 2 < 1) : modulus (marsaglia r p) = r := by
  have hsq : Real.sqrt (1 - (p.1 ^ 2 + p.2 ^ 2)) ^ 2 = 1 - (p.1 ^ 2 + p.2 ^ 2) := Real.sq_sqrt (by linarith)
  rw [modulus_eq_sqrt, Real.sqrt_eq_iff_mul_self_eq (by unfold nsq; positivity) hr]
  simp only [nsq, marsaglia, Matrix.cons_val]
  linear_combination (4 * (p.1 ^ 2 + p.2 ^ 2) * r ^ 2) * hsq

theorem disc_subset_square : {p : ℝ × ℝ | p.1 ^ 2 + p.2 ^ 2 < 1} ⊆ square := by
  intro p hp
  have hp : p.1 ^ 2 + p.2 ^ 2 < 1 := hp
  refine ⟨⟨?_, ?_⟩, ⟨?_, ?_⟩⟩ <;> nlinarith [sq_nonneg p.1, sq_nonneg p.2]

theorem disc_meas : MeasurableSet {p : ℝ × ℝ | p.1 ^ 2 + p.2 ^ 2 < 1} := (isOpen_lt (by fun_prop) (by fun_prop)).measurableSet

theorem uniform_disc : uniformLaw square {p : ℝ × ℝ | p.1 ^ 2 + p.2 ^ 2 < 1} = 4⁻¹ * volume {p : ℝ × ℝ | p.1 ^ 2 + p.2 ^ 2 < 1} := by
  rw [uniformLaw, Measure.smul_apply, square_volume, smul_eq_mul, Measure.restrict_apply disc_meas,
    Set.inter_eq_left.2 disc_subset_square]

theorem disc_area : (volume {p : ℝ × ℝ | p.1 ^ 2 + p.2 ^ 2 < 1}).toReal = Real.pi := by
  have h := marsaglia_integral 1 (fun _ => 1) continuous_const
  simp only [setIntegral_const, smul_eq_mul, mul_one, intervalIntegral.integral_const] at h
  rw [measureReal_def] at h
  rw [h]; ring

/-- C102: with uniform random pairs, the arrays of `spherical_random_shell` almost surely exist from some number of draws
on and become the uniform spherical shell. -/
theorem C102_random_shell (hX : UniformDraws P X square) (mass r : ℝ) (hr : 0 ≤ r) :
    ∀ᵐ ω ∂P, ∃ A : ℕ → PtArray, (∀ᶠ n in atTop, Shp.sphericalRandomShell mass r (drawn X n ω) = .ok (A n)) ∧
      Tracks atTop A (Body.shell mass r) (shell r) := by
  have hpi := Real.pi_pos
  have hvol : (uniformLaw square {p : ℝ × ℝ | p.1 ^ 2 + p.2 ^ 2 < 1}).toReal = Real.pi / 4 := by
    rw [uniform_disc, ENNReal.toReal_mul, disc_area]
    simp; ring
  have h := draws_track hX (by rw [square_volume]; norm_num) (by rw [square_volume]; norm_num)
    (fun p : ℝ × ℝ => p.1 ^ 2 + p.2 ^ 2 < 1) disc_meas (by rw [hvol]; positivity) (marsaglia r)
    (continuous_marsaglia r).measurable (shell r) (shell_compact r) (fun p hp => marsaglia_modulus hr hp) mass
    (Body.shell mass r) (fun p hp => by
      rw [(shell_mem hp).2]
      exact shell_null hr (shell_compact r).isClosed.measurableSet.compl fun v hv => hv)
    (fun f hf _ => by
      rw [hvol, shell_sumOver _ _ _ hf, uniformLaw, Measure.restrict_smul, integral_smul_measure, square_volume,
        Measure.restrict_restrict disc_meas, Set.inter_eq_left.2 disc_subset_square, marsaglia_integral r f hf, smul_eq_mul]
      simp only [ENNReal.toReal_inv, ENNReal.toReal_ofNat]
      field_simp)
  filter_upwards [h] with ω hω
  refine ⟨_, ?_, hω.2⟩
  filter_upwards [hω.1] with n hn
  rw [Shp.sphericalRandomShell]
  simp only
  rw [if_neg hn]
  rfl

/-- C102: the same for the Octave generator. -/
theorem C102_octave (hX : UniformDraws P X square) (mass r : ℝ) (hr : 0 ≤ r) :
    ∀ᵐ ω ∂P, Tracks atTop (fun n => Oct.genPointMassSphericalRandomShell mass r (drawn X n ω)) (Body.shell mass r) (shell r) := by
  filter_upwards [C102_random_shell hX mass r hr] with ω hω
  obtain ⟨A, h1, h2⟩ := hω
  have hev : ∀ᶠ n in atTop, A n = Oct.genPointMassSphericalRandomShell mass r (drawn X n ω) := by
    filter_upwards [h1] with n hn
    have hex : ∃ t ∈ drawn X n ω, t.1 ^ 2 + t.2 ^ 2 < 1 := by
      by_contra hno
      push Not at hno
      have : (drawn X n ω).filter (fun p => decide (p.1 ^ 2 + p.2 ^ 2 < 1)) = [] := by
        rw [List.filter_eq_nil_iff]
        intro t ht
        have := hno t ht
        simpa using this
      rw [Shp.sphericalRandomShell, this] at hn
      simp at hn
    rw [C94_shell mass r _ hex] at hn
    simpa using hn.symm
  refine ⟨?_, ?_, h2.support, fun f hf => ?_⟩
  · filter_upwards [h2.inside, hev] with n a b; rwa [← b]
  · obtain ⟨C, hC⟩ := h2.bounded
    exact ⟨C, by filter_upwards [hC, hev] with n a b; rwa [← b]⟩
  · exact (h2.tends f hf).congr' (by filter_upwards [hev] with n b; rw [b])

/-! ## The shell theorem -/

theorem force_shell_eq (b : Body) (M r : ℝ) (i : Fin 3) : b.force BIG_G (Body.shell M r) i =
    (b.map fun p => BIG_G * p.rho * M * ∫ x, ∫ y, (y - x) i / modulus (y - x) ^ 3 ∂shellMu r ∂p.mu).sum := by
  simp [Body.force, Body.shell, shellMu]

theorem torque_shell_eq (b : Body) (M r : ℝ) (i : Fin 3) : b.torque BIG_G (Body.shell M r) i =
    (b.map fun p => BIG_G * p.rho * M * ∫ x, ∫ y, (crossProduct x (y - x)) i / modulus (y - x) ^ 3 ∂shellMu r ∂p.mu).sum := by
  simp [Body.torque, Body.shell, shellMu]

/-- C102: a uniform shell exerts neither force nor torque on any body inside it. -/
theorem C102_shell_inside (b : Body) (M r a : ℝ) (ha : 0 ≤ a) (har : a < r) (hb : b.InBall a) (i : Fin 3) :
    b.force BIG_G (Body.shell M r) i = 0 ∧ b.torque BIG_G (Body.shell M r) i = 0 := by
  refine ⟨shell_force_inside M ha har b hb i, ?_⟩
  rw [torque_shell_eq]
  have hae := InBall.ae hb
  refine List.sum_eq_zero fun x hx => ?_
  obtain ⟨p, hp, rfl⟩ := List.mem_map.1 hx
  have : ∫ x, ∫ y, (crossProduct x (y - x)) i / modulus (y - x) ^ 3 ∂shellMu r ∂p.mu = ∫ _, (0 : ℝ) ∂p.mu := by
    refine integral_congr_ae ?_
    filter_upwards [hae p hp] with x hx
    have hx' : modulus x < r := lt_of_le_of_lt hx har
    rw [shell_torque_field (by linarith) hx'.ne]
    have : (fun j => ∫ y, (y - x) j / modulus (y - x) ^ 3 ∂shellMu r) = 0 := by
      funext j; exact shell_field_inside hx' j
    rw [this, map_zero]; rfl
  rw [this]; simp

/-- C102: on any body outside it a uniform shell exerts the force and the torque of the point mass at its centre. -/
theorem C102_shell_outside (b : Body) (M r D : ℝ) (hr : 0 ≤ r) (hrD : r < D) (hb : b.OffBall D) (i : Fin 3) :
    b.force BIG_G (Body.shell M r) i = b.force BIG_G (Body.points [⟨M, 0⟩]) i ∧
      b.torque BIG_G (Body.shell M r) i = b.torque BIG_G (Body.points [⟨M, 0⟩]) i := by
  rw [force_shell_eq, torque_shell_eq]
  have e1 : b.force BIG_G (Body.points [⟨M, 0⟩]) i =
      (b.map fun p => BIG_G * p.rho * M * ∫ x : V3, (0 - x) i / modulus (0 - x) ^ 3 ∂p.mu).sum := by
    simp [Body.force, Body.points, Piece.point]
  have e2 : b.torque BIG_G (Body.points [⟨M, 0⟩]) i =
      (b.map fun p => BIG_G * p.rho * M * ∫ x : V3, (crossProduct x (0 - x)) i / modulus (0 - x) ^ 3 ∂p.mu).sum := by
    simp [Body.torque, Body.points, Piece.point]
  rw [e1, e2]
  have hae := OffBall.ae hb
  constructor
  · congr 1
    refine List.map_congr_left fun p hp => ?_
    congr 1
    refine integral_congr_ae ?_
    filter_upwards [hae p hp] with x hx
    rw [shell_field_outside hr (lt_of_lt_of_le hrD hx), zero_sub, modulus_neg, Pi.neg_apply]
  · congr 1
    refine List.map_congr_left fun p hp => ?_
    congr 1
    refine integral_congr_ae ?_
    filter_upwards [hae p hp] with x hx
    have hx' := lt_of_lt_of_le hrD hx
    rw [shell_torque_field hr hx'.ne']
    have : (fun j => ∫ y, (y - x) j / modulus (y - x) ^ 3 ∂shellMu r) = (1 / modulus x ^ 3) • (0 - x) := by
      funext j; rw [shell_field_outside hr hx', zero_sub]; simp only [Pi.smul_apply, Pi.neg_apply, smul_eq_mul]; ring
    rw [this, map_smul, zero_sub, modulus_neg, Pi.smul_apply, smul_eq_mul]
    ring

/-! ## What the code returns -/

theorem points_support (B : PtArray) : Inside B {v | ∃ p ∈ B, p.pos = v} := fun p hp => ⟨p, hp, rfl⟩

theorem points_compact (B : PtArray) : IsCompact {v : V3 | ∃ p ∈ B, p.pos = v} := by
  have : {v : V3 | ∃ p ∈ B, p.pos = v} = {v | v ∈ B.map Pt.pos} := by
    ext v; simp
  rw [this]
  exact (List.finite_toSet _).isCompact

/-- Gravity of arrays that track a body, on fixed points. -/
theorem gravity_tracks (B : PtArray) {A : ℕ → PtArray} {c : Body} {K : Set V3} (hA : Tracks atTop A c K) (hK : IsCompact K)
    (hB : ∀ p ∈ B, p.pos ∉ K) :
    ∃ f t : ℕ → V3, (∀ᶠ n in atTop, point_matrix_gravity B (A n) = some (f n, t n)) ∧
      (∀ i, Tendsto (fun n => f n i) atTop (𝓝 ((Body.points B).force BIG_G c i))) ∧
      (∀ i, Tendsto (fun n => t n i) atTop (𝓝 ((Body.points B).torque BIG_G c i))) := by
  have hd : Disjoint {v : V3 | ∃ p ∈ B, p.pos = v} K := by
    rw [Set.disjoint_left]
    rintro v ⟨p, hp, rfl⟩ h
    exact hB p hp h
  obtain ⟨f, t, h1, h2, h3⟩ := C86_gravity (F := (atTop : Filter ℕ)) (C86_points B _ (points_support B)) hA (points_compact B) hK hd
  have hdiag : Tendsto (fun n : ℕ => (n, n)) atTop (atTop ×ˢ atTop) := tendsto_id.prodMk tendsto_id
  exact ⟨fun n => f (n, n), fun n => t (n, n), hdiag.eventually h1, fun i => (h2 i).comp hdiag, fun i => (h3 i).comp hdiag⟩

theorem exists_gap_above (B : PtArray) (r : ℝ) (h : ∀ p ∈ B, r < modulus p.pos) : ∃ D, r < D ∧ ∀ p ∈ B, D ≤ modulus p.pos := by
  induction B with
  | nil => exact ⟨r + 1, by linarith, by simp⟩
  | cons p B ih =>
    obtain ⟨D, h1, h2⟩ := ih fun q hq => h q (List.mem_cons_of_mem _ hq)
    refine ⟨min D (modulus p.pos), lt_min h1 (h p List.mem_cons_self), fun q hq => ?_⟩
    rcases List.mem_cons.1 hq with rfl | hq
    · exact min_le_right _ _
    · exact (min_le_left _ _).trans (h2 q hq)

theorem exists_gap_below (B : PtArray) (r : ℝ) (hr : 0 < r) (h : ∀ p ∈ B, modulus p.pos < r) :
    ∃ a, 0 ≤ a ∧ a < r ∧ ∀ p ∈ B, modulus p.pos ≤ a := by
  induction B with
  | nil => exact ⟨0, le_rfl, hr, by simp⟩
  | cons p B ih =>
    obtain ⟨a, h0, h1, h2⟩ := ih fun q hq => h q (List.mem_cons_of_mem _ hq)
    refine ⟨max a (modulus p.pos), h0.trans (le_max_left _ _), max_lt h1 (h p List.mem_cons_self), fun q hq => ?_⟩
    rcases List.mem_cons.1 hq with rfl | hq
    · exact le_max_right _ _
    · exact (h2 q hq).trans (le_max_left _ _)

/-- C102: the gravity that `point_matrix_gravity` computes on points outside a random shell almost surely tends, as the
number of draws grows, to that of the same mass placed at the centre. -/
theorem C102_gravity_outside (hX : UniformDraws P X square) (mass r : ℝ) (hr : 0 ≤ r) (B : PtArray)
    (hB : ∀ p ∈ B, r < modulus p.pos) :
    ∃ F T : V3, point_matrix_gravity B [⟨mass, 0⟩] = some (F, T) ∧
      ∀ᵐ ω ∂P, ∃ (A : ℕ → PtArray) (f t : ℕ → V3),
        (∀ᶠ n in atTop, Shp.sphericalRandomShell mass r (drawn X n ω) = .ok (A n)) ∧
        (∀ᶠ n in atTop, point_matrix_gravity B (A n) = some (f n, t n)) ∧
        ∀ i, Tendsto (fun n => f n i) atTop (𝓝 (F i)) ∧ Tendsto (fun n => t n i) atTop (𝓝 (T i)) := by
  have hap : Apart B [⟨mass, 0⟩] := by
    intro p hp q hq e
    have h1 := hB p hp
    simp only [List.mem_singleton] at hq
    subst hq
    rw [e, (modulus_eq_zero _).2 rfl] at h1
    linarith
  obtain ⟨F, T, h1, h2, h3⟩ := C80_points B [⟨mass, 0⟩] hap
  refine ⟨F, T, h1, ?_⟩
  obtain ⟨D, hD, hBD⟩ := exists_gap_above B r hB
  have hoff : (Body.points B).OffBall D := (Body.points_offBall B D).2 hBD
  filter_upwards [C102_random_shell hX mass r hr] with ω hω
  obtain ⟨A, a1, a2⟩ := hω
  obtain ⟨f, t, b1, b2, b3⟩ := gravity_tracks B a2 (shell_compact r) fun p hp h => (hB p hp).ne' h
  refine ⟨A, f, t, a1, b1, fun i => ?_⟩
  have hs := C102_shell_outside (Body.points B) mass r D hr hD hoff i
  rw [← h2, ← h3, ← hs.1, ← hs.2]
  exact ⟨b2 i, b3 i⟩

/-- C102: one point outside: the force tends to `-G m M x / |x|^3` and the torque to zero. -/
theorem C102_point_outside (hX : UniformDraws P X square) (mass r m : ℝ) (hr : 0 ≤ r) (x : V3) (hx : r < modulus x) :
    ∀ᵐ ω ∂P, ∃ (A : ℕ → PtArray) (f t : ℕ → V3),
      (∀ᶠ n in atTop, Shp.sphericalRandomShell mass r (drawn X n ω) = .ok (A n)) ∧
      (∀ᶠ n in atTop, point_matrix_gravity [⟨m, x⟩] (A n) = some (f n, t n)) ∧
      ∀ i, Tendsto (fun n => f n i) atTop (𝓝 (-(BIG_G * m * mass) * x i / modulus x ^ 3)) ∧ Tendsto (fun n => t n i) atTop (𝓝 0) := by
  have hx0 : (0 : V3) ≠ x := by
    intro e
    rw [← e, (modulus_eq_zero _).2 rfl] at hx
    linarith
  obtain ⟨F, T, h1, h2⟩ := C102_gravity_outside hX mass r hr [⟨m, x⟩] (by simpa using hx)
  have hap : Apart [⟨m, x⟩] [⟨mass, (0 : V3)⟩] := by
    intro p hp q hq
    simp only [List.mem_singleton] at hp hq
    subst hp; subst hq
    first | exact hx0 | exact hx0.symm
  have hT : ∀ i, T i = 0 := by
    obtain ⟨F', T', g1, g2, g3⟩ := C80_points [⟨m, x⟩] [⟨mass, 0⟩] hap
    rw [h1, Option.some.injEq, Prod.mk.injEq] at g1
    intro i
    rw [g1.2, ← g3 i]
    have : (crossProduct x (0 - x)) = 0 := by rw [zero_sub, map_neg, cross_self, neg_zero]
    simp only [Body.torque, Body.points, List.map_cons, List.map_nil, List.sum_cons, List.sum_nil, add_zero, Piece.point, integral_dirac]
    rw [this]; simp
  have hF : ∀ i, F i = -(BIG_G * m * mass) * x i / modulus x ^ 3 := by
    obtain ⟨F', T', g1, g2, g3⟩ := C80_points [⟨m, x⟩] [⟨mass, 0⟩] hap
    rw [h1, Option.some.injEq, Prod.mk.injEq] at g1
    intro i
    rw [g1.1, ← g2 i]
    simp only [Body.force, Body.points, List.map_cons, List.map_nil, List.sum_cons, List.sum_nil, add_zero, Piece.point, integral_dirac]
    rw [zero_sub, modulus_neg, Pi.neg_apply]; ring
  filter_upwards [h2] with ω hω
  obtain ⟨A, f, t, b1, b2, b3⟩ := hω
  exact ⟨A, f, t, b1, b2, fun i => by rw [← hF i, ← hT i]; exact b3 i⟩

/-- C102: on points inside a random shell force and torque almost surely tend to zero. -/
theorem C102_gravity_inside (hX : UniformDraws P X square) (mass r : ℝ) (hr : 0 < r) (B : PtArray)
    (hB : ∀ p ∈ B, modulus p.pos < r) :
    ∀ᵐ ω ∂P, ∃ (A : ℕ → PtArray) (f t : ℕ → V3),
      (∀ᶠ n in atTop, Shp.sphericalRandomShell mass r (drawn X n ω) = .ok (A n)) ∧
      (∀ᶠ n in atTop, point_matrix_gravity B (A n) = some (f n, t n)) ∧
      ∀ i, Tendsto (fun n => f n i) atTop (𝓝 0) ∧ Tendsto (fun n => t n i) atTop (𝓝 0) := by
  obtain ⟨a, ha, har, hBa⟩ := exists_gap_below B r hr hB
  have hin : (Body.points B).InBall a := (Body.points_inBall B a).2 hBa
  filter_upwards [C102_random_shell hX mass r hr.le] with ω hω
  obtain ⟨A, a1, a2⟩ := hω
  obtain ⟨f, t, b1, b2, b3⟩ := gravity_tracks B a2 (shell_compact r) fun p hp h => (hB p hp).ne h
  refine ⟨A, f, t, a1, b1, fun i => ?_⟩
  have hs := C102_shell_inside (Body.points B) mass r a ha har hin i
  have h1 := b2 i
  have h2 := b3 i
  rw [hs.1] at h1
  rw [hs.2] at h2
  exact ⟨h1, h2⟩

/-- C102: the Yukawa force of a random shell on a point at its centre almost surely tends to zero. -/
theorem C102_yukawa_centre (hX : UniformDraws P X square) (mass r m alpha lmbd : ℝ) (hr : 0 < r) (hl : lmbd ≠ 0) :
    ∀ᵐ ω ∂P, ∃ (A : ℕ → PtArray) (f t : ℕ → V3),
      (∀ᶠ n in atTop, Shp.sphericalRandomShell mass r (drawn X n ω) = .ok (A n)) ∧
      (∀ᶠ n in atTop, point_matrix_yukawa [⟨m, 0⟩] (A n) alpha lmbd = some (f n, t n)) ∧
      ∀ i, Tendsto (fun n => f n i) atTop (𝓝 0) ∧ Tendsto (fun n => t n i) atTop (𝓝 0) := by
  filter_upwards [C102_random_shell hX mass r hr.le] with ω hω
  obtain ⟨A, a1, a2⟩ := hω
  have hd : Disjoint {(0 : V3)} (shell r) := by
    rw [Set.disjoint_left]
    intro v hv h
    rw [Set.mem_singleton_iff.1 hv] at h
    have h : modulus (0 : V3) = r := h
    rw [(modulus_eq_zero _).2 rfl] at h
    linarith
  obtain ⟨f, t, h1, h2, h3⟩ := C86_yukawa alpha lmbd hl (F := (atTop : Filter ℕ)) (C86_points [⟨m, 0⟩] {0} (by intro p hp; simp at hp; simp [hp])) a2
    isCompact_singleton (shell_compact r) hd
  have hdiag : Tendsto (fun n : ℕ => (n, n)) atTop (atTop ×ˢ atTop) := tendsto_id.prodMk tendsto_id
  have hz : ∀ i, ∫ y, Real.exp (-modulus (y - (0 : V3)) / lmbd) * (1 + modulus (y - (0 : V3)) / lmbd) * (y - (0 : V3)) i /
      modulus (y - (0 : V3)) ^ 3 ∂shellMu r = 0 := by
    intro i
    have h0 := shell_field_inside (r := r) (x := 0) (by rw [(modulus_eq_zero _).2 rfl]; exact hr) i
    have e : ∫ y, Real.exp (-modulus (y - (0 : V3)) / lmbd) * (1 + modulus (y - (0 : V3)) / lmbd) * (y - (0 : V3)) i /
        modulus (y - (0 : V3)) ^ 3 ∂shellMu r =
        ∫ y, (Real.exp (-r / lmbd) * (1 + r / lmbd)) * ((y - (0 : V3)) i / modulus (y - (0 : V3)) ^ 3) ∂shellMu r := by
      refine integral_congr_ae ?_
      filter_upwards [shell_ae hr.le] with y hy
      rw [sub_zero, hy]; ring
    rw [e, integral_const_mul, h0, mul_zero]
  refine ⟨A, fun n => f (n, n), fun n => t (n, n), a1, hdiag.eventually h1, fun i => ⟨?_, ?_⟩⟩
  · have h := (h2 i).comp hdiag
    have e : (Body.points [⟨m, 0⟩]).yukawaForce alpha lmbd BIG_G (Body.shell mass r) i = 0 := by
      simp only [Body.yukawaForce, Body.points, Piece.point, List.map_cons, List.map_nil, List.sum_cons, List.sum_nil, add_zero, integral_dirac,
        Body.shell]
      have := hz i
      rw [shellMu] at this
      rw [this, mul_zero]
    rw [e] at h; exact h
  · have h := (h3 i).comp hdiag
    have e : (Body.points [⟨m, 0⟩]).yukawaTorque alpha lmbd BIG_G (Body.shell mass r) i = 0 := by
      simp only [Body.yukawaTorque, Body.points, Piece.point, List.map_cons, List.map_nil, List.sum_cons, List.sum_nil, add_zero, integral_dirac]
      simp
    rw [e] at h; exact h

/-! ## Such draws exist -/

theorem uniformDraws_exist (S : Set (ℝ × ℝ)) (h0 : volume S ≠ 0) (h1 : volume S ≠ ⊤) :
    UniformDraws (Measure.infinitePi fun _ : ℕ => uniformLaw S) (fun k ω => ω k) S := by
  have hpr : IsProbabilityMeasure (uniformLaw S) := ⟨by
    rw [uniformLaw, Measure.smul_apply, smul_eq_mul, Measure.restrict_apply_univ, ENNReal.inv_mul_cancel h0 h1]⟩
  refine ⟨fun k => measurable_pi_apply k, fun i j hij => ?_, fun k => Measure.infinitePi_map_eval _ k⟩
  exact (iIndepFun_infinitePi (X := fun _ ω => ω) (fun _ => measurable_id)).indepFun hij

/-- The test of the repository: a shell of radius 10 seen from 20. -/
example : ∀ᵐ ω ∂(Measure.infinitePi fun _ : ℕ => uniformLaw square), ∃ (A : ℕ → PtArray) (f t : ℕ → V3),
    (∀ᶠ n in atTop, Shp.sphericalRandomShell 1 10 (drawn (fun k ω => ω k) n ω) = .ok (A n)) ∧
    (∀ᶠ n in atTop, point_matrix_gravity [⟨1, ![20, 0, 0]⟩] (A n) = some (f n, t n)) ∧
    ∀ i, Tendsto (fun n => f n i) atTop (𝓝 (-(BIG_G * 1 * 1) * (![20, 0, 0] : V3) i / modulus ![20, 0, 0] ^ 3)) ∧
      Tendsto (fun n => t n i) atTop (𝓝 0) :=
  C102_point_outside (uniformDraws_exist square (by rw [square_volume]; norm_num) (by rw [square_volume]; norm_num)) 1 10 1 (by norm_num)
    ![20, 0, 0] (by
      rw [modulus_eq_sqrt, nsq]
      simp only [Matrix.cons_val]
      rw [show ((20 : ℝ) ^ 2 + 0 ^ 2 + 0 ^ 2) = 20 ^ 2 by norm_num, Real.sqrt_sq (by norm_num)]; norm_num)

end Newt
