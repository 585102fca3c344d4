import Verif.Proofs.YukShell
import Verif.Props.RandomShell
import Verif.Props.GlConverge
import Verif.Spec.Spheres

/-!
# C110: the Yukawa interaction of shells and balls
-/

namespace Newt

open Spec Filter Topology MeasureTheory

variable {Ω : Type*} [MeasurableSpace Ω] {P : Measure Ω} {X : ℕ → Ω → ℝ × ℝ}

theorem yuk_kernel (l s u : ℝ) : Real.exp (-s / l) * (1 + s / l) * u / s ^ 3 = yukW l s * u := by
  rw [yukW]; ring

theorem yukForce_eq (alpha l G : ℝ) (b c : Body) (i : Fin 3) : b.yukawaForce alpha l G c i =
    (b.map fun p => (c.map fun q => alpha * G * p.rho * q.rho * ∫ x, ∫ y, yukW l (modulus (y - x)) * (y - x) i ∂q.mu ∂p.mu).sum).sum := by
  simp only [Body.yukawaForce, yuk_kernel]

theorem yukTorque_eq (alpha l G : ℝ) (b c : Body) (i : Fin 3) : b.yukawaTorque alpha l G c i =
    (b.map fun p => (c.map fun q => alpha * G * p.rho * q.rho * ∫ x, ∫ y, yukW l (modulus (y - x)) * (crossProduct x (y - x)) i ∂q.mu ∂p.mu).sum).sum := by
  simp only [Body.yukawaTorque, yuk_kernel]

theorem yukForce_append_left (alpha l G : ℝ) (b b' c : Body) (i : Fin 3) :
    (b ++ b').yukawaForce alpha l G c i = b.yukawaForce alpha l G c i + b'.yukawaForce alpha l G c i := by
  simp only [Body.yukawaForce, List.map_append, List.sum_append]

theorem yukTorque_append_left (alpha l G : ℝ) (b b' c : Body) (i : Fin 3) :
    (b ++ b').yukawaTorque alpha l G c i = b.yukawaTorque alpha l G c i + b'.yukawaTorque alpha l G c i := by
  simp only [Body.yukawaTorque, List.map_append, List.sum_append]

theorem yukForce_append_right (alpha l G : ℝ) (b c c' : Body) (i : Fin 3) :
    b.yukawaForce alpha l G (c ++ c') i = b.yukawaForce alpha l G c i + b.yukawaForce alpha l G c' i := by
  simp only [Body.yukawaForce, List.map_append, List.sum_append, List.sum_map_add]

theorem yukTorque_append_right (alpha l G : ℝ) (b c c' : Body) (i : Fin 3) :
    b.yukawaTorque alpha l G (c ++ c') i = b.yukawaTorque alpha l G c i + b.yukawaTorque alpha l G c' i := by
  simp only [Body.yukawaTorque, List.map_append, List.sum_append, List.sum_map_add]

/-- A piece whose field is that of a point: it acts as that point does. -/
theorem yuk_acts (alpha l G : ℝ) (q : Piece) (kappa : ℝ) (z : V3) (S : Set V3)
    (h : ∀ x ∈ S, ∀ i, Integrable (fun y : V3 => yukW l (modulus (y - x)) * (y - x) i) q.mu ∧
      ∫ y, yukW l (modulus (y - x)) * (y - x) i ∂q.mu = kappa * (yukW l (modulus (z - x)) * (z - x) i))
    (b : Body) (hb : ∀ p ∈ b, ∀ᵐ x ∂p.mu, x ∈ S) (i : Fin 3) :
    b.yukawaForce alpha l G [q] i = b.yukawaForce alpha l G (Body.points [⟨q.rho * kappa, z⟩]) i ∧
      b.yukawaTorque alpha l G [q] i = b.yukawaTorque alpha l G (Body.points [⟨q.rho * kappa, z⟩]) i := by
  rw [yukForce_eq, yukForce_eq, yukTorque_eq, yukTorque_eq]
  simp only [Body.points, Piece.point, List.map_cons, List.map_nil, List.sum_cons, List.sum_nil, add_zero, integral_dirac]
  have hcross : ∀ x ∈ S, ∫ y, yukW l (modulus (y - x)) * (crossProduct x (y - x)) i ∂q.mu =
      kappa * (yukW l (modulus (z - x)) * (crossProduct x (z - x)) i) := by
    intro x hx
    have key : ∀ a c : Fin 3, ∀ u w : ℝ, (∀ v : V3, (crossProduct x v) i = u * v a - w * v c) →
        ∫ y, yukW l (modulus (y - x)) * (crossProduct x (y - x)) i ∂q.mu = kappa * (yukW l (modulus (z - x)) * (crossProduct x (z - x)) i) := by
      intro a c u w hv
      have e : (fun y : V3 => yukW l (modulus (y - x)) * (crossProduct x (y - x)) i) = fun y =>
          u * (yukW l (modulus (y - x)) * (y - x) a) - w * (yukW l (modulus (y - x)) * (y - x) c) := by
        funext y; rw [hv]; ring
      rw [e, integral_sub ((h x hx a).1.const_mul u) ((h x hx c).1.const_mul w), integral_const_mul, integral_const_mul, (h x hx a).2, (h x hx c).2, hv]
      ring
    fin_cases i
    · exact key 2 1 (x 1) (x 2) fun v => by simp [cross_apply]
    · exact key 0 2 (x 2) (x 0) fun v => by simp [cross_apply]
    · exact key 1 0 (x 0) (x 1) fun v => by simp [cross_apply]
  constructor
  · congr 1
    refine List.map_congr_left fun p hp => ?_
    have e : ∫ x, ∫ y, yukW l (modulus (y - x)) * (y - x) i ∂q.mu ∂p.mu = ∫ x, kappa * (yukW l (modulus (z - x)) * (z - x) i) ∂p.mu :=
      integral_congr_ae (by filter_upwards [hb p hp] with x hx using (h x hx i).2)
    rw [e, integral_const_mul]; ring
  · congr 1
    refine List.map_congr_left fun p hp => ?_
    have e : ∫ x, ∫ y, yukW l (modulus (y - x)) * (crossProduct x (y - x)) i ∂q.mu ∂p.mu =
        ∫ x, kappa * (yukW l (modulus (z - x)) * (crossProduct x (z - x)) i) ∂p.mu :=
      integral_congr_ae (by filter_upwards [hb p hp] with x hx using hcross x hx)
    rw [e, integral_const_mul]; ring

theorem yukW_contOn (l : ℝ) (x : V3) (K : Set V3) (hK : ∀ y ∈ K, y ≠ x) (i : Fin 3) :
    ContinuousOn (fun y : V3 => yukW l (modulus (y - x)) * (y - x) i) K := by
  have hm : Continuous fun y : V3 => modulus (y - x) := modulus_continuous.comp (continuous_id.sub continuous_const)
  refine ContinuousOn.mul ?_ (by fun_prop)
  unfold yukW
  refine ContinuousOn.div (f := fun y : V3 => Real.exp (-modulus (y - x) / l) * (1 + modulus (y - x) / l)) (g := fun y : V3 => modulus (y - x) ^ 3)
    (by fun_prop) (hm.pow 3).continuousOn fun y hy => ?_
  exact pow_ne_zero _ fun h => hK y hy (sub_eq_zero.1 ((modulus_eq_zero _).1 h))

/-! ## shells -/

/-- C110: on every body outside it, a uniform shell exerts the Yukawa force and torque of a point at its centre with the mass increased by the
factor `sinh(r/l)/(r/l)`. -/
theorem C110_shell_outside (alpha l : ℝ) (hl : l ≠ 0) (b : Body) (M r D : ℝ) (hr : 0 < r) (hrD : r < D) (hb : b.OffBall D) (i : Fin 3) :
    b.yukawaForce alpha l BIG_G (Body.shell M r) i = b.yukawaForce alpha l BIG_G (Body.points [⟨M * yukShell (r / l), 0⟩]) i ∧
      b.yukawaTorque alpha l BIG_G (Body.shell M r) i = b.yukawaTorque alpha l BIG_G (Body.points [⟨M * yukShell (r / l), 0⟩]) i := by
  have hae := OffBall.ae hb
  refine yuk_acts alpha l BIG_G _ (yukShell (r / l)) 0 {x | r < modulus x} (fun x hx i => ?_) b
    (fun p hp => by filter_upwards [hae p hp] with x hx using lt_of_lt_of_le hrD hx) i
  have hx : r < modulus x := hx
  constructor
  · change Integrable _ (shellMu r)
    have hres : (shellMu r).restrict {v : V3 | modulus v = r} = shellMu r := Measure.restrict_eq_self_of_ae_mem (shell_ae hr.le)
    rw [← hres]
    have hc := yukW_contOn l x {v : V3 | modulus v = r} (fun y hy e => by
      have : modulus y = r := hy
      rw [e] at this; linarith) i
    exact hc.integrableOn_compact ((ball_compact r).of_isClosed_subset (isClosed_eq modulus_continuous continuous_const) fun v hv => le_of_eq hv)
  · have := yuk_shell_outside l hl hr x hx i
    refine this.trans ?_
    rw [zero_sub, modulus_neg, Pi.neg_apply]; ring

/-- The Yukawa force between fixed arrays as the double sum of the law. -/
theorem yuk_points (alpha l : ℝ) (hl : l ≠ 0) (A B : PtArray) (h : Apart A B) :
    ∃ F T : V3, point_matrix_yukawa A B alpha l = some (F, T) ∧ (∀ i, F i = (Body.points A).yukawaForce alpha l BIG_G (Body.points B) i) ∧
      ∀ i, T i = (Body.points A).yukawaTorque alpha l BIG_G (Body.points B) i := by
  have hA : Tracks (pure ()) (fun _ : Unit => A) (Body.points A) {v | ∃ p ∈ A, p.pos = v} := C86_points A _ (points_support A)
  have hB : Tracks (pure ()) (fun _ : Unit => B) (Body.points B) {v | ∃ p ∈ B, p.pos = v} := C86_points B _ (points_support B)
  have hd : Disjoint {v : V3 | ∃ p ∈ A, p.pos = v} {v : V3 | ∃ p ∈ B, p.pos = v} := by
    rw [Set.disjoint_left]
    rintro v ⟨p, hp, rfl⟩ ⟨q, hq, e⟩
    exact h p hp q hq e.symm
  obtain ⟨f, t, k1, k2, k3⟩ := C86_yukawa alpha l hl hA hB (points_compact A) (points_compact B) hd
  rw [show (pure () : Filter Unit) ×ˢ (pure () : Filter Unit) = pure ((), ()) from prod_pure_pure] at k1 k2 k3
  refine ⟨f ((), ()), t ((), ()), eventually_pure.1 k1, fun i => ?_, fun i => ?_⟩
  · exact tendsto_nhds_unique (tendsto_pure_left.2 fun s hs => mem_of_mem_nhds hs) (k2 i)
  · exact tendsto_nhds_unique (tendsto_pure_left.2 fun s hs => mem_of_mem_nhds hs) (k3 i)

theorem yuk_tracks (alpha l : ℝ) (hl : l ≠ 0) (B : PtArray) {A : ℕ → PtArray} {c : Body} {K : Set V3} (hA : Tracks atTop A c K) (hK : IsCompact K)
    (hB : ∀ p ∈ B, p.pos ∉ K) :
    ∃ f t : ℕ → V3, (∀ᶠ n in atTop, point_matrix_yukawa B (A n) alpha l = some (f n, t n)) ∧
      (∀ i, Tendsto (fun n => f n i) atTop (𝓝 ((Body.points B).yukawaForce alpha l BIG_G c i))) ∧
      (∀ i, Tendsto (fun n => t n i) atTop (𝓝 ((Body.points B).yukawaTorque alpha l BIG_G c i))) := by
  have hd : Disjoint {v : V3 | ∃ p ∈ B, p.pos = v} K := by
    rw [Set.disjoint_left]
    rintro v ⟨p, hp, rfl⟩ h
    exact hB p hp h
  obtain ⟨f, t, h1, h2, h3⟩ := C86_yukawa alpha l hl (F := (atTop : Filter ℕ)) (C86_points B _ (points_support B)) hA (points_compact B) hK hd
  have hdiag : Tendsto (fun n : ℕ => (n, n)) atTop (atTop ×ˢ atTop) := tendsto_id.prodMk tendsto_id
  exact ⟨fun n => f (n, n), fun n => t (n, n), hdiag.eventually h1, fun i => (h2 i).comp hdiag, fun i => (h3 i).comp hdiag⟩

theorem apart_centre (B : PtArray) (r M : ℝ) (hr : 0 ≤ r) (hB : ∀ p ∈ B, r < modulus p.pos) : Apart B [⟨M, 0⟩] := by
  intro p hp q hq e
  have h1 := hB p hp
  simp only [List.mem_singleton] at hq
  subst hq
  rw [e, (modulus_eq_zero _).2 rfl] at h1
  linarith

/-- C110: what `point_matrix_yukawa` returns for points outside a random shell almost surely tends to what it returns for one point at the centre
with the increased mass. -/
theorem C110_random_shell_outside (hX : UniformDraws P X square) (alpha l mass r : ℝ) (hl : l ≠ 0) (hr : 0 < r) (B : PtArray)
    (hB : ∀ p ∈ B, r < modulus p.pos) :
    ∃ F T : V3, point_matrix_yukawa B [⟨mass * yukShell (r / l), 0⟩] alpha l = some (F, T) ∧
      ∀ᵐ ω ∂P, ∃ (A : ℕ → PtArray) (f t : ℕ → V3),
        (∀ᶠ n in atTop, Shp.sphericalRandomShell mass r (drawn X n ω) = .ok (A n)) ∧
        (∀ᶠ n in atTop, point_matrix_yukawa B (A n) alpha l = some (f n, t n)) ∧
        ∀ i, Tendsto (fun n => f n i) atTop (𝓝 (F i)) ∧ Tendsto (fun n => t n i) atTop (𝓝 (T i)) := by
  obtain ⟨F, T, h1, h2, h3⟩ := yuk_points alpha l hl B [⟨mass * yukShell (r / l), 0⟩] (apart_centre B r _ hr.le hB)
  refine ⟨F, T, h1, ?_⟩
  obtain ⟨D, hD, hBD⟩ := exists_gap_above B r hB
  have hoff : (Body.points B).OffBall D := (Body.points_offBall B D).2 hBD
  filter_upwards [C102_random_shell hX mass r hr.le] with ω hω
  obtain ⟨A, a1, a2⟩ := hω
  obtain ⟨f, t, b1, b2, b3⟩ := yuk_tracks alpha l hl B a2 (shell_compact r) fun p hp h => (hB p hp).ne' h
  refine ⟨A, f, t, a1, b1, fun i => ?_⟩
  have hs := C110_shell_outside alpha l hl (Body.points B) mass r D hr hD hoff i
  rw [h2, h3, ← hs.1, ← hs.2]
  exact ⟨b2 i, b3 i⟩

/-- C110: on a point inside, off the centre, the shell exerts an outward Yukawa force of size
`alpha G m M exp(-r/l)/r (d cosh(d/l) - l sinh(d/l))/d^2`, `d` the distance from the centre, and no torque. -/
theorem C110_random_shell_inside (hX : UniformDraws P X square) (alpha l mass r m : ℝ) (hl : l ≠ 0) (x : V3) (hx0 : x ≠ 0) (hx : modulus x < r) :
    ∀ᵐ ω ∂P, ∃ (A : ℕ → PtArray) (f t : ℕ → V3),
      (∀ᶠ n in atTop, Shp.sphericalRandomShell mass r (drawn X n ω) = .ok (A n)) ∧
      (∀ᶠ n in atTop, point_matrix_yukawa [⟨m, x⟩] (A n) alpha l = some (f n, t n)) ∧
      ∀ i, Tendsto (fun n => f n i) atTop (𝓝 (alpha * BIG_G * m * mass * (Real.exp (-r / l) / r) *
          ((modulus x * Real.cosh (modulus x / l) - l * Real.sinh (modulus x / l)) / modulus x ^ 2) * (x i / modulus x))) ∧
        Tendsto (fun n => t n i) atTop (𝓝 0) := by
  have hr : 0 < r := lt_of_le_of_lt (modulus_nonneg x) hx
  have hD : modulus x ≠ 0 := fun h => hx0 ((modulus_eq_zero x).1 h)
  filter_upwards [C102_random_shell hX mass r hr.le] with ω hω
  obtain ⟨A, a1, a2⟩ := hω
  obtain ⟨f, t, b1, b2, b3⟩ := yuk_tracks alpha l hl [⟨m, x⟩] a2 (shell_compact r) (by
    intro p hp h
    rw [List.mem_singleton] at hp
    subst hp
    exact hx.ne h)
  set k := Real.exp (-r / l) / r * (modulus x * Real.cosh (modulus x / l) - l * Real.sinh (modulus x / l)) / modulus x ^ 3 with hk
  have hF := fun i => yuk_shell_inside l hl x hx0 hx i
  refine ⟨A, f, t, a1, b1, fun i => ⟨?_, ?_⟩⟩
  · convert b2 i using 2
    rw [yukForce_eq]
    simp only [Body.points, Piece.point, Body.shell, List.map_cons, List.map_nil, List.sum_cons, List.sum_nil, add_zero, integral_dirac]
    change _ = alpha * BIG_G * m * mass * ∫ y, yukW l (modulus (y - x)) * (y - x) i ∂shellMu r
    rw [hF i]
    field_simp
  · convert b3 i using 2
    rw [yukTorque_eq]
    simp only [Body.points, Piece.point, Body.shell, List.map_cons, List.map_nil, List.sum_cons, List.sum_nil, add_zero, integral_dirac]
    change 0 = alpha * BIG_G * m * mass * ∫ y, yukW l (modulus (y - x)) * (crossProduct x (y - x)) i ∂shellMu r
    have hI : ∀ j, Integrable (fun y : V3 => yukW l (modulus (y - x)) * (y - x) j) (shellMu r) := by
      intro j
      have hres : (shellMu r).restrict {v : V3 | modulus v = r} = shellMu r := Measure.restrict_eq_self_of_ae_mem (shell_ae hr.le)
      rw [← hres]
      have hc := yukW_contOn l x {v : V3 | modulus v = r} (fun y hy e => by
        have : modulus y = r := hy
        rw [e] at this; linarith) j
      exact hc.integrableOn_compact ((ball_compact r).of_isClosed_subset (isClosed_eq modulus_continuous continuous_const) fun v hv => le_of_eq hv)
    have key : ∀ a c : Fin 3, (∀ v : V3, (crossProduct x v) i = x a * v c - x c * v a) →
        ∫ y, yukW l (modulus (y - x)) * (crossProduct x (y - x)) i ∂shellMu r = 0 := by
      intro a c hv
      have e : (fun y : V3 => yukW l (modulus (y - x)) * (crossProduct x (y - x)) i) = fun y =>
          x a * (yukW l (modulus (y - x)) * (y - x) c) - x c * (yukW l (modulus (y - x)) * (y - x) a) := by
        funext y; rw [hv]; ring
      rw [e, integral_sub ((hI c).const_mul _) ((hI a).const_mul _), integral_const_mul, integral_const_mul, hF, hF]
      ring
    have : ∫ y, yukW l (modulus (y - x)) * (crossProduct x (y - x)) i ∂shellMu r = 0 := by
      fin_cases i
      · exact key 1 2 fun v => by simp [cross_apply]
      · exact key 2 0 fun v => by simp [cross_apply]
      · exact key 0 1 fun v => by simp [cross_apply]
    rw [this, mul_zero]

/-! ## balls -/

theorem ball_volume_eq {R : ℝ} (hR : 0 < R) : (volume (ball R)).toReal = 4 / 3 * Real.pi * R ^ 3 := by
  have h := ball_shells hR.le (fun _ => 1) continuous_const
  have e : ∀ r : ℝ, ∫ _ : V3, (1 : ℝ) ∂shellMu r = 1 := by
    intro r
    rw [integral_const, measureReal_def, shellMu_univ]; simp
  simp only [e, mul_one] at h
  rw [setIntegral_const, measureReal_def, smul_eq_mul, mul_one, intervalIntegral.integral_const_mul, integral_pow] at h
  rw [h]
  norm_num
  ring

theorem sphereAt_piece (s : Pt) (R : ℝ) : ∃ q : Piece, Body.sphereAt s R = [q] ∧ q.rho = s.mass / (volume (ball R)).toReal ∧
    q.mu = (volume.restrict (ball R)).map (fun v => v + s.pos) := ⟨_, rfl, rfl, rfl⟩

theorem list_sum_map_neg {α : Type*} (L : List α) (f : α → ℝ) : -(L.map f).sum = (L.map fun a => -f a).sum := by
  induction L with
  | nil => simp
  | cons a L ih => simp only [List.map_cons, List.sum_cons, ← ih]; ring

/-- The field of a uniform sphere at a point outside. -/
theorem sphereAt_field (l : ℝ) (hl : l ≠ 0) (R : ℝ) (hR : 0 < R) (c x : V3) (hx : R < modulus (x - c)) (i : Fin 3) :
    Integrable (fun y : V3 => yukW l (modulus (y - x)) * (y - x) i) ((volume.restrict (ball R)).map fun v => v + c) ∧
    ∫ y, yukW l (modulus (y - x)) * (y - x) i ∂(volume.restrict (ball R)).map (fun v => v + c) =
      (volume (ball R)).toReal * yukBall (R / l) * (yukW l (modulus (c - x)) * (c - x) i) := by
  have he : MeasurableEmbedding fun v : V3 => v + c := measurableEmbedding_addRight c
  have ex : ∀ y : V3, y + c - x = y - (x - c) := fun y => by abel
  constructor
  · rw [he.integrable_map_iff]
    have hc := yukW_contOn l (x - c) (ball R) (fun y hy e => by
      have : modulus y ≤ R := hy
      rw [e] at this; linarith) i
    have := hc.integrableOn_compact (μ := volume) (ball_compact R)
    refine this.congr (Eventually.of_forall fun y => ?_)
    simp only [Function.comp, ex]
  · rw [he.integral_map]
    simp only [ex]
    rw [yuk_ball_outside l hl hR (x - c) hx i, ball_volume_eq hR, modulus_sub_comm c x, ← neg_sub x c, Pi.neg_apply]
    ring

theorem sphereAt_acts (alpha l : ℝ) (hl : l ≠ 0) (s : Pt) (R : ℝ) (hR : 0 < R) (b : Body) (hb : ∀ p ∈ b, ∀ᵐ x ∂p.mu, R < modulus (x - s.pos)) (i : Fin 3) :
    b.yukawaForce alpha l BIG_G (Body.sphereAt s R) i = b.yukawaForce alpha l BIG_G (Body.points [⟨s.mass * yukBall (R / l), s.pos⟩]) i ∧
      b.yukawaTorque alpha l BIG_G (Body.sphereAt s R) i = b.yukawaTorque alpha l BIG_G (Body.points [⟨s.mass * yukBall (R / l), s.pos⟩]) i := by
  have hv : (volume (ball R)).toReal ≠ 0 := (ball_vol R hR).ne'
  obtain ⟨q, e1, e2, e3⟩ := sphereAt_piece s R
  have h := yuk_acts alpha l BIG_G q ((volume (ball R)).toReal * yukBall (R / l)) s.pos {x | R < modulus (x - s.pos)}
    (fun x hx i => by rw [e3]; exact sphereAt_field l hl R hR s.pos x hx i) b hb i
  rw [← e1, e2, show s.mass / (volume (ball R)).toReal * ((volume (ball R)).toReal * yukBall (R / l)) = s.mass * yukBall (R / l) by field_simp] at h
  exact h

/-- C110: on every body outside it a uniform sphere exerts the Yukawa force and torque of a point at its centre with the mass increased by the
factor `3 (x cosh x - sinh x)/x^3`, `x = R/l`. -/
theorem C110_sphere (alpha l : ℝ) (hl : l ≠ 0) (s : Pt) (R D : ℝ) (hR : 0 < R) (hD : R < D) (b : Body) (hb : (b.translate (-s.pos)).OffBall D) (i : Fin 3) :
    b.yukawaForce alpha l BIG_G (Body.sphereAt s R) i = b.yukawaForce alpha l BIG_G (Body.points [⟨s.mass * yukBall (R / l), s.pos⟩]) i ∧
      b.yukawaTorque alpha l BIG_G (Body.sphereAt s R) i = b.yukawaTorque alpha l BIG_G (Body.points [⟨s.mass * yukBall (R / l), s.pos⟩]) i := by
  refine sphereAt_acts alpha l hl s R hR b (fun p hp => ?_) i
  have h := hb _ (List.mem_map.2 ⟨p, hp, rfl⟩)
  change (p.mu.map fun v => v + -s.pos) _ = 0 at h
  rw [Measure.map_apply (by fun_prop) (measurableSet_lt modulus_continuous.measurable measurable_const)] at h
  have : ∀ᵐ x ∂p.mu, ¬ modulus (x + -s.pos) < D := by
    rw [ae_iff]; simpa using h
  filter_upwards [this] with x hx
  rw [← sub_eq_add_neg] at hx
  linarith

/-! ## action and reaction with a point -/

theorem yuk_point_force (alpha l G : ℝ) (q : Pt) (b : Body) (i : Fin 3) :
    b.yukawaForce alpha l G (Body.points [q]) i = -(Body.points [q]).yukawaForce alpha l G b i := by
  rw [yukForce_eq, yukForce_eq]
  simp only [Body.points, Piece.point, List.map_cons, List.map_nil, List.sum_cons, List.sum_nil, add_zero, integral_dirac]
  rw [list_sum_map_neg]
  congr 1
  refine List.map_congr_left fun p _ => ?_
  have e : (fun x : V3 => yukW l (modulus (q.pos - x)) * (q.pos - x) i) = fun x => -(yukW l (modulus (x - q.pos)) * (x - q.pos) i) := by
    funext x
    rw [modulus_sub_comm, ← neg_sub x q.pos, Pi.neg_apply]; ring
  rw [e, integral_neg]; ring

theorem yuk_point_torque (alpha l G : ℝ) (q : Pt) (b : Body) (i : Fin 3) :
    b.yukawaTorque alpha l G (Body.points [q]) i = -(Body.points [q]).yukawaTorque alpha l G b i := by
  rw [yukTorque_eq, yukTorque_eq]
  simp only [Body.points, Piece.point, List.map_cons, List.map_nil, List.sum_cons, List.sum_nil, add_zero, integral_dirac]
  rw [list_sum_map_neg]
  congr 1
  refine List.map_congr_left fun p _ => ?_
  have e : (fun x : V3 => yukW l (modulus (q.pos - x)) * (crossProduct x (q.pos - x)) i) = fun x =>
      -(yukW l (modulus (x - q.pos)) * (crossProduct q.pos (x - q.pos)) i) := by
    funext x
    have : crossProduct x (q.pos - x) = -crossProduct q.pos (x - q.pos) := by
      rw [map_sub, map_sub, cross_self, cross_self, sub_zero, sub_zero, ← cross_anticomm]
    rw [modulus_sub_comm, this, Pi.neg_apply]; ring
  rw [e, integral_neg]; ring

/-- Two spheres. -/
theorem yuk_two_spheres (alpha l : ℝ) (hl : l ≠ 0) (s s' : Pt) (R R' : ℝ) (hR : 0 < R) (hR' : 0 < R') (h : R + R' < modulus (s'.pos - s.pos)) (i : Fin 3) :
    (Body.sphereAt s R).yukawaForce alpha l BIG_G (Body.sphereAt s' R') i =
      (Body.points [⟨s.mass * yukBall (R / l), s.pos⟩]).yukawaForce alpha l BIG_G (Body.points [⟨s'.mass * yukBall (R' / l), s'.pos⟩]) i ∧
    (Body.sphereAt s R).yukawaTorque alpha l BIG_G (Body.sphereAt s' R') i =
      (Body.points [⟨s.mass * yukBall (R / l), s.pos⟩]).yukawaTorque alpha l BIG_G (Body.points [⟨s'.mass * yukBall (R' / l), s'.pos⟩]) i := by
  have h1 := sphereAt_acts alpha l hl s' R' hR' (Body.sphereAt s R) (fun p hp => by
    have hs := sphereAt_support s R p hp
    have : ∀ᵐ x ∂p.mu, x ∈ {v : V3 | modulus (v - s.pos) ≤ R} := hs
    filter_upwards [this] with x hx
    have hx : modulus (x - s.pos) ≤ R := hx
    have t := modulus_add_le (s'.pos - x) (x - s.pos)
    rw [sub_add_sub_cancel] at t
    rw [modulus_sub_comm]
    linarith) i
  have h2 := sphereAt_acts alpha l hl s R hR (Body.points [⟨s'.mass * yukBall (R' / l), s'.pos⟩]) (fun p hp => by
    simp only [Body.points, List.map_cons, List.map_nil, List.mem_singleton] at hp
    subst hp
    change ∀ᵐ x ∂Measure.dirac s'.pos, R < modulus (x - s.pos)
    rw [ae_dirac_eq, eventually_pure]
    linarith) i
  rw [h1.1, h1.2, yuk_point_force, yuk_point_torque, h2.1, h2.2, yuk_point_force, yuk_point_torque, neg_neg, neg_neg]
  exact ⟨rfl, rfl⟩

/-- The points that stand for an assembly of spheres. -/
noncomputable def yukCentres (l : ℝ) (A : List (Pt × ℝ)) : PtArray := A.map fun s => ⟨s.1.mass * yukBall (s.2 / l), s.1.pos⟩

/-- C110: two assemblies of uniform spheres, no two of different assemblies touching, exert on each other the Yukawa force and torque of the
arrays of their centres, each mass increased by the factor of its sphere. -/
theorem C110_spheres (alpha l : ℝ) (hl : l ≠ 0) (A B : List (Pt × ℝ)) (hA : ∀ s ∈ A, 0 < s.2) (hB : ∀ s ∈ B, 0 < s.2)
    (h : ∀ s ∈ A, ∀ s' ∈ B, s.2 + s'.2 < modulus (s'.1.pos - s.1.pos)) :
    ∃ F T : V3, point_matrix_yukawa (A.map fun s => ⟨s.1.mass * yukBall (s.2 / l), s.1.pos⟩) (B.map fun s => ⟨s.1.mass * yukBall (s.2 / l), s.1.pos⟩) alpha l
        = some (F, T) ∧
      (∀ i, (Body.spheres A).yukawaForce alpha l BIG_G (Body.spheres B) i = F i) ∧
      ∀ i, (Body.spheres A).yukawaTorque alpha l BIG_G (Body.spheres B) i = T i := by
  have hap : Apart (yukCentres l A) (yukCentres l B) := by
    intro p hp q hq e
    obtain ⟨s, hs, rfl⟩ := List.mem_map.1 hp
    obtain ⟨s', hs', rfl⟩ := List.mem_map.1 hq
    have := h s hs s' hs'
    simp only at e
    rw [e, sub_self, (modulus_eq_zero _).2 rfl] at this
    linarith [hA s hs, hB s' hs']
  obtain ⟨F, T, h1, h2, h3⟩ := yuk_points alpha l hl _ _ hap
  refine ⟨F, T, h1, ?_⟩
  have key : ∀ i, (Body.spheres A).yukawaForce alpha l BIG_G (Body.spheres B) i =
        (Body.points (yukCentres l A)).yukawaForce alpha l BIG_G (Body.points (yukCentres l B)) i ∧
      (Body.spheres A).yukawaTorque alpha l BIG_G (Body.spheres B) i =
        (Body.points (yukCentres l A)).yukawaTorque alpha l BIG_G (Body.points (yukCentres l B)) i := by
    intro i
    clear h1 h2 h3 hap
    induction A with
    | nil => simp [Body.spheres, yukCentres, Body.points, Body.yukawaForce, Body.yukawaTorque]
    | cons a A ihA =>
      have ih := ihA (fun s hs => hA s (List.mem_cons_of_mem _ hs)) fun s hs => h s (List.mem_cons_of_mem _ hs)
      have ea : Body.spheres (a :: A) = Body.sphereAt a.1 a.2 ++ Body.spheres A := rfl
      have eb : Body.points (yukCentres l (a :: A)) = Body.points [⟨a.1.mass * yukBall (a.2 / l), a.1.pos⟩] ++ Body.points (yukCentres l A) := rfl
      have one : (Body.sphereAt a.1 a.2).yukawaForce alpha l BIG_G (Body.spheres B) i =
            (Body.points [⟨a.1.mass * yukBall (a.2 / l), a.1.pos⟩]).yukawaForce alpha l BIG_G (Body.points (yukCentres l B)) i ∧
          (Body.sphereAt a.1 a.2).yukawaTorque alpha l BIG_G (Body.spheres B) i =
            (Body.points [⟨a.1.mass * yukBall (a.2 / l), a.1.pos⟩]).yukawaTorque alpha l BIG_G (Body.points (yukCentres l B)) i := by
        clear ih ihA
        have ha := hA a List.mem_cons_self
        have hh := h a List.mem_cons_self
        clear h hA ea eb
        induction B with
        | nil => simp [Body.spheres, yukCentres, Body.points, Body.yukawaForce, Body.yukawaTorque]
        | cons b B ih =>
          have ih := ih (fun s hs => hB s (List.mem_cons_of_mem _ hs)) fun s hs => hh s (List.mem_cons_of_mem _ hs)
          have ec : Body.spheres (b :: B) = Body.sphereAt b.1 b.2 ++ Body.spheres B := rfl
          have ed : Body.points (yukCentres l (b :: B)) = Body.points [⟨b.1.mass * yukBall (b.2 / l), b.1.pos⟩] ++ Body.points (yukCentres l B) := rfl
          have h2 := yuk_two_spheres alpha l hl a.1 b.1 a.2 b.2 ha (hB b List.mem_cons_self) (hh b List.mem_cons_self) i
          rw [ec, ed, yukForce_append_right, yukForce_append_right, yukTorque_append_right, yukTorque_append_right, h2.1, h2.2, ih.1, ih.2]
          exact ⟨rfl, rfl⟩
      rw [ea, eb, yukForce_append_left, yukForce_append_left, yukTorque_append_left, yukTorque_append_left, one.1, one.2, ih.1, ih.2]
      exact ⟨rfl, rfl⟩
  exact ⟨fun i => (key i).1.trans (h2 i).symm, fun i => (key i).2.trans (h3 i).symm⟩

/-! ## refined arrays -/

/-- C110: refined arrays of two uniform balls, moved apart with `translate_point_array`: force and torque of `point_matrix_yukawa` converge to those
of the two centres with the increased masses. -/
theorem C110_refined_balls (alpha l : ℝ) (hl : l ≠ 0) {ι κ : Type*} {F : Filter ι} {G : Filter κ} {A : ι → PtArray} {B : κ → PtArray} (m m' R R' : ℝ)
    (hR : 0 < R) (hR' : 0 < R') (hA : Tracks F A (Body.solid m (ball R) (ball_compact R)) (ball R))
    (hB : Tracks G B (Body.solid m' (ball R') (ball_compact R')) (ball R')) (d d' : V3) (h : R + R' < modulus (d' - d)) :
    ∃ (f t : ι × κ → V3) (f' t' : V3),
      (∀ᶠ n in F ×ˢ G, point_matrix_yukawa (translate_point_array (A n.1) d) (translate_point_array (B n.2) d') alpha l = some (f n, t n)) ∧
      point_matrix_yukawa [⟨m * yukBall (R / l), d⟩] [⟨m' * yukBall (R' / l), d'⟩] alpha l = some (f', t') ∧
      ∀ i, Tendsto (fun n => f n i) (F ×ˢ G) (𝓝 (f' i)) ∧ Tendsto (fun n => t n i) (F ×ˢ G) (𝓝 (t' i)) := by
  have hA' := C86_translate hA (ball_compact R) d
  have hB' := C86_translate hB (ball_compact R') d'
  have hcA : IsCompact ((fun v : V3 => v + d) '' ball R) := (ball_compact R).image (continuous_id.add continuous_const)
  have hcB : IsCompact ((fun v : V3 => v + d') '' ball R') := (ball_compact R').image (continuous_id.add continuous_const)
  have hdis : Disjoint ((fun v : V3 => v + d) '' ball R) ((fun v : V3 => v + d') '' ball R') := by
    rw [Set.disjoint_left]
    rintro _ ⟨u, hu, rfl⟩ ⟨w, hw, e⟩
    have hu : modulus u ≤ R := hu
    have hw : modulus w ≤ R' := hw
    have e' : d' - d = u + -w := by
      have e : w + d' = u + d := e
      rw [eq_comm, ← sub_eq_zero] at e ⊢
      rw [← e]; abel
    have := modulus_add_le u (-w)
    rw [← e', modulus_neg] at this
    linarith
  obtain ⟨f, t, h1, h2, h3⟩ := C86_yukawa alpha l hl hA' hB' hcA hcB hdis
  have hap : Apart [⟨m * yukBall (R / l), d⟩] [⟨m' * yukBall (R' / l), d'⟩] := by
    intro p hp q hq e
    rw [List.mem_singleton] at hp hq
    subst hp; subst hq
    have e : d = d' := e
    rw [e, sub_self, (modulus_eq_zero _).2 rfl] at h
    linarith
  obtain ⟨f', t', k1, k2, k3⟩ := yuk_points alpha l hl _ _ hap
  refine ⟨f, t, f', t', h1, k1, fun i => ?_⟩
  have key := yuk_two_spheres alpha l hl ⟨m, d⟩ ⟨m', d'⟩ R R' hR hR' h i
  rw [k2, k3, ← key.1, ← key.2]
  exact ⟨h2 i, h3 i⟩

/-- C110: refined arrays of a ball and a fixed array outside it. -/
theorem C110_refined_ball (alpha l : ℝ) (hl : l ≠ 0) {A : ℕ → PtArray} (m R : ℝ) (hR : 0 < R)
    (hA : Tracks atTop A (Body.solid m (ball R) (ball_compact R)) (ball R)) (B : PtArray) (hB : ∀ p ∈ B, R < modulus p.pos) :
    ∃ (f t : ℕ → V3) (f' t' : V3), (∀ᶠ n in atTop, point_matrix_yukawa B (A n) alpha l = some (f n, t n)) ∧
      point_matrix_yukawa B [⟨m * yukBall (R / l), 0⟩] alpha l = some (f', t') ∧
      ∀ i, Tendsto (fun n => f n i) atTop (𝓝 (f' i)) ∧ Tendsto (fun n => t n i) atTop (𝓝 (t' i)) := by
  obtain ⟨f, t, h1, h2, h3⟩ := yuk_tracks alpha l hl B hA (ball_compact R) fun p hp h => by
    have : modulus p.pos ≤ R := h
    linarith [hB p hp]
  obtain ⟨f', t', k1, k2, k3⟩ := yuk_points alpha l hl B [⟨m * yukBall (R / l), 0⟩] (apart_centre B R _ hR.le hB)
  refine ⟨f, t, f', t', h1, k1, fun i => ?_⟩
  have key := sphereAt_acts alpha l hl ⟨m, 0⟩ R hR (Body.points B) (fun p hp => by
    obtain ⟨b, hb, rfl⟩ := List.mem_map.1 hp
    change ∀ᵐ x ∂Measure.dirac b.pos, R < modulus (x - 0)
    rw [ae_dirac_eq, eventually_pure, sub_zero]
    exact hB b hb) i
  have e : Body.sphereAt ⟨m, 0⟩ R = Body.solid m (ball R) (ball_compact R) := translate_zero_body _
  rw [e] at key
  rw [k2, k3, ← key.1, ← key.2]
  exact ⟨h2 i, h3 i⟩

/-- C110: in particular for the arrays of `gShapeGL.sphere`. -/
theorem C110_gl_sphere (gl : ℕ → GLeg.Rule) (hgl : ∀ n, 1 ≤ n → Gauss (gl n) n) (alpha l : ℝ) (hl : l ≠ 0) (m R : ℝ) (hm : m ≠ 0) (hR : 0 < R)
    (B : PtArray) (hB : ∀ p ∈ B, R < modulus p.pos) :
    ∃ (A : ℕ → PtArray) (f t : ℕ → V3) (f' t' : V3), (∀ᶠ n in atTop, GLeg.sphere gl m R n = .ok (A n)) ∧
      (∀ᶠ n in atTop, point_matrix_yukawa B (A n) alpha l = some (f n, t n)) ∧
      point_matrix_yukawa B [⟨m * yukBall (R / l), 0⟩] alpha l = some (f', t') ∧
      ∀ i, Tendsto (fun n => f n i) atTop (𝓝 (f' i)) ∧ Tendsto (fun n => t n i) atTop (𝓝 (t' i)) := by
  obtain ⟨A, hok, hA⟩ := C90_sphere gl hgl m R hm hR
  obtain ⟨f, t, f', t', h1, h2, h3⟩ := C110_refined_ball alpha l hl m R hR hA B hB
  exact ⟨A, f, t, f', t', hok, h1, h2, h3⟩

/-! ## the factors -/

theorem pos_of_deriv_pos {f f' : ℝ → ℝ} (h0 : f 0 = 0) (hd : ∀ x, HasDerivAt f (f' x) x) (hp : ∀ x, 0 < x → 0 < f' x) {x : ℝ} (hx : 0 < x) : 0 < f x := by
  have hmono : StrictMonoOn f (Set.Ici 0) := by
    refine strictMonoOn_of_deriv_pos (convex_Ici 0) (fun y _ => (hd y).continuousAt.continuousWithinAt) fun y hy => ?_
    rw [interior_Ici, Set.mem_Ioi] at hy
    rw [(hd y).deriv]
    exact hp y hy
  have := hmono (Set.mem_Ici.2 le_rfl) (Set.mem_Ici.2 hx.le) hx
  rwa [h0] at this

theorem xcosh_sub_sinh_pos {x : ℝ} (hx : 0 < x) : 0 < x * Real.cosh x - Real.sinh x := by
  refine pos_of_deriv_pos (f := fun x => x * Real.cosh x - Real.sinh x) (f' := fun x => x * Real.sinh x) (by simp) (fun y => ?_)
    (fun y hy => mul_pos hy (Real.sinh_pos_iff.2 hy)) hx
  refine (((hasDerivAt_id y).mul (Real.hasDerivAt_cosh y)).sub (Real.hasDerivAt_sinh y)).congr_deriv ?_
  change 1 * Real.cosh y + y * Real.sinh y - Real.cosh y = _
  ring

theorem yukBall_neg (x : ℝ) : yukBall (-x) = yukBall x := by
  rw [yukBall, yukBall, Real.cosh_neg, Real.sinh_neg]
  rw [show (-x) ^ 3 = -(x ^ 3) by ring, show 3 * (-x * Real.cosh x - -Real.sinh x) = -(3 * (x * Real.cosh x - Real.sinh x)) by ring, neg_div_neg_eq]

theorem yukShell_neg (x : ℝ) : yukShell (-x) = yukShell x := by
  rw [yukShell, yukShell, Real.sinh_neg, neg_div_neg_eq]

/-- C110: extended bodies attract more strongly than points: `1 < ball < shell` for every finite range. -/
theorem C110_factors (x : ℝ) (hx : x ≠ 0) : 1 < yukBall x ∧ yukBall x < yukShell x := by
  have main : ∀ x : ℝ, 0 < x → 1 < yukBall x ∧ yukBall x < yukShell x := by
    intro x hx
    constructor
    · rw [yukBall, lt_div_iff₀ (by positivity), one_mul]
      have := pos_of_deriv_pos (f := fun x => 3 * (x * Real.cosh x - Real.sinh x) - x ^ 3) (f' := fun x => 3 * (x * Real.sinh x) - 3 * x ^ 2)
        (by simp) (fun y => by
          refine ((((hasDerivAt_id y).mul (Real.hasDerivAt_cosh y)).sub (Real.hasDerivAt_sinh y)).const_mul 3 |>.sub (hasDerivAt_pow 3 y)).congr_deriv ?_
          change 3 * (1 * Real.cosh y + y * Real.sinh y - Real.cosh y) - (3 : ℕ) * y ^ (3 - 1) = _
          norm_num) (fun y hy => by
          have := Real.self_lt_sinh_iff.2 hy
          nlinarith) hx
      linarith
    · rw [yukBall, yukShell, div_lt_div_iff₀ (by positivity) hx]
      have := pos_of_deriv_pos (f := fun x => x ^ 2 * Real.sinh x - 3 * (x * Real.cosh x - Real.sinh x)) (f' := fun x => x * (x * Real.cosh x - Real.sinh x))
        (by simp) (fun y => by
          refine (((hasDerivAt_pow 2 y).mul (Real.hasDerivAt_sinh y)).sub
            ((((hasDerivAt_id y).mul (Real.hasDerivAt_cosh y)).sub (Real.hasDerivAt_sinh y)).const_mul 3)).congr_deriv ?_
          change (2 : ℕ) * y ^ (2 - 1) * Real.sinh y + y ^ 2 * Real.cosh y - 3 * (1 * Real.cosh y + y * Real.sinh y - Real.cosh y) = _
          norm_num
          ring) (fun y hy => mul_pos hy (xcosh_sub_sinh_pos hy)) hx
      nlinarith
  rcases lt_or_gt_of_ne hx with h | h
  · have := main (-x) (by linarith)
    rwa [yukBall_neg, yukShell_neg] at this
  · exact main x h

/-- C110: for ranges that are large compared with the body both factors tend to one, and spheres act as points again. -/
theorem C110_factors_limit (R : ℝ) (hR : R ≠ 0) : Tendsto (fun l : ℝ => yukBall (R / l)) atTop (𝓝 1) ∧
    Tendsto (fun l : ℝ => yukShell (R / l)) atTop (𝓝 1) := by
  have h0 : Tendsto (fun l : ℝ => R / l) atTop (𝓝[≠] 0) := by
    refine tendsto_nhdsWithin_iff.2 ⟨tendsto_const_nhds.div_atTop tendsto_id, ?_⟩
    filter_upwards [eventually_gt_atTop 0] with l hl
    exact div_ne_zero hR hl.ne'
  have hs : Tendsto yukShell (𝓝[≠] 0) (𝓝 1) := by
    have := (Real.hasDerivAt_sinh 0).tendsto_slope
    rw [Real.cosh_zero] at this
    refine this.congr fun x => ?_
    rw [slope_def_field, yukShell, Real.sinh_zero, sub_zero, sub_zero]
  have hb : Tendsto yukBall (𝓝[≠] 0) (𝓝 1) := by
    refine tendsto_of_tendsto_of_tendsto_of_le_of_le' tendsto_const_nhds hs ?_ ?_
    · filter_upwards [self_mem_nhdsWithin] with x hx using (C110_factors x hx).1.le
    · filter_upwards [self_mem_nhdsWithin] with x hx using (C110_factors x hx).2.le
  exact ⟨hb.comp h0, hs.comp h0⟩

/-- Instance: two spheres of radius 1 at distance 3, and a third. -/
example : ∃ F T : V3, point_matrix_yukawa [⟨2 * yukBall (1 / 5), ![0, 0, 0]⟩] [⟨3 * yukBall (1 / 5), ![3, 0, 0]⟩, ⟨1 * yukBall ((1 / 2) / 5), ![0, 4, 0]⟩] 1 5 = some (F, T) ∧
    (∀ i, (Body.spheres [(⟨2, ![0, 0, 0]⟩, 1)]).yukawaForce 1 5 BIG_G (Body.spheres [(⟨3, ![3, 0, 0]⟩, 1), (⟨1, ![0, 4, 0]⟩, 1 / 2)]) i = F i) ∧
    ∀ i, (Body.spheres [(⟨2, ![0, 0, 0]⟩, 1)]).yukawaTorque 1 5 BIG_G (Body.spheres [(⟨3, ![3, 0, 0]⟩, 1), (⟨1, ![0, 4, 0]⟩, 1 / 2)]) i = T i := by
  have e1 : modulus (![3, 0, 0] - ![0, 0, 0]) = 3 := by
    rw [modulus, Real.sqrt_eq_iff_mul_self_eq_of_pos (by norm_num)]; simp; norm_num
  have e2 : modulus (![0, 4, 0] - ![0, 0, 0]) = 4 := by
    rw [modulus, Real.sqrt_eq_iff_mul_self_eq_of_pos (by norm_num)]; simp; norm_num
  refine C110_spheres 1 5 (by norm_num) [(⟨2, ![0, 0, 0]⟩, 1)] [(⟨3, ![3, 0, 0]⟩, 1), (⟨1, ![0, 4, 0]⟩, 1 / 2)] (by simp) (by simp) ?_
  intro s hs s' hs'
  simp only [List.mem_cons, List.not_mem_nil, or_false] at hs hs'
  subst hs
  rcases hs' with rfl | rfl
  · rw [e1]; norm_num
  · rw [e2]; norm_num

/-- Instance: Gauss-Legendre arrays of a ball of radius 1 and a point at distance 2. -/
example : ∃ gl : ℕ → GLeg.Rule, ∃ (A : ℕ → PtArray) (f t : ℕ → V3) (f' t' : V3), (∀ᶠ n in atTop, GLeg.sphere gl 5 1 n = .ok (A n)) ∧
      (∀ᶠ n in atTop, point_matrix_yukawa [⟨1, ![2, 0, 0]⟩] (A n) 1 3 = some (f n, t n)) ∧
      point_matrix_yukawa [⟨1, ![2, 0, 0]⟩] [⟨5 * yukBall (1 / 3), 0⟩] 1 3 = some (f', t') ∧
      ∀ i, Tendsto (fun n => f n i) atTop (𝓝 (f' i)) ∧ Tendsto (fun n => t n i) atTop (𝓝 (t' i)) := by
  obtain ⟨gl, hgl⟩ := C90_rules_exist
  refine ⟨gl, C110_gl_sphere gl hgl 1 3 (by norm_num) 5 1 (by norm_num) (by norm_num) _ ?_⟩
  intro p hp
  rw [List.mem_singleton] at hp
  subst hp
  have : modulus ![2, 0, 0] = 2 := by rw [modulus, Real.sqrt_eq_iff_mul_self_eq_of_pos (by norm_num)]; simp; norm_num
  simp only [this]; norm_num

/-- Instance: a random shell of radius 1 and points inside and outside. -/
example : ∃ (Ω : Type) (_ : MeasurableSpace Ω) (P : Measure Ω) (X : ℕ → Ω → ℝ × ℝ), UniformDraws P X square ∧ (1 : ℝ) < modulus ![2, 0, 0] ∧
    modulus ![1 / 2, 0, 0] < 1 := by
  refine ⟨_, _, _, _, uniformDraws_exist square (by rw [square_volume]; norm_num) (by rw [square_volume]; norm_num), ?_, ?_⟩
  · rw [modulus]; simp; try norm_num
  · rw [modulus]; simp; try norm_num

end Newt
