import Verif.Proofs.Tracks
import Verif.Props.GlibConverge2
import Verif.Props.Pg2Multi
import Verif.Props.BodyForce
import Verif.Props.Qlm

/-!
# C86, C87: forces, torques and moments of refined point arrays

`Tracks F A b K` (Spec/Approx) says that the point arrays `A n` become the body `b`.
-/

namespace Newt

open MeasureTheory Filter Topology Spec

variable {ι κ : Type*} {F : Filter ι} {G : Filter κ}

/-! ## C86: which arrays track which bodies -/

/-- The arrays of a generator that approximates a solid track the uniform solid. -/
theorem C86_solid {A : ι → Shp.Out} {M : ℝ} {S : Set V3} (h : Approximates F A M S) (hS : IsCompact S) :
    ∃ B : ι → PtArray, (∀ᶠ n in F, A n = .ok (B n)) ∧ Tracks F B (Body.solid M S hS) S := by
  obtain ⟨B, h1, h2⟩ := h
  exact ⟨B, h1, tracks_solid h2 hS⟩

/-- Point masses that stay as they are track themselves. -/
theorem C86_points (A : PtArray) (K : Set V3) (hK : Inside A K) : Tracks F (fun _ => A) (Body.points A) K :=
  tracks_points A K hK

/-- Stacking arrays (`np.concatenate`) tracks the assembly of the two bodies. -/
theorem C86_append {A B : ι → PtArray} {b c : Body} {K K' : Set V3} (hA : Tracks F A b K) (hB : Tracks F B c K') :
    Tracks F (fun n => A n ++ B n) (b ++ c) (K ∪ K') := tracks_append hA hB

/-- `translate_point_array` of the arrays tracks the translated body. -/
theorem C86_translate {A : ι → PtArray} {b : Body} {K : Set V3} (hA : Tracks F A b K) (hK : IsCompact K) (d : V3) :
    Tracks F (fun n => translate_point_array (A n) d) (b.translate d) ((fun v => v + d) '' K) :=
  tracks_move hA hK (fun v => v + d) (continuous_id.add continuous_const)

/-- `rotate_point_array` of the arrays succeeds and tracks the rotated body. -/
theorem C86_rotate {A : ι → PtArray} {b : Body} {K : Set V3} (hA : Tracks F A b K) (hK : IsCompact K) (theta : ℝ) (v : V3)
    (hv : v ≠ 0) :
    ∃ (f : V3 → V3) (hf : Continuous f) (B : ι → PtArray), IsRotationAbout v theta f ∧
      (∀ n, rotate_point_array (A n) theta v = some (B n)) ∧ Tracks F B (b.map fun p => p.move f hf) (f '' K) := by
  obtain ⟨f, ⟨h1, h2⟩, -⟩ := C06_rotate_is_rotation theta v hv
  let l : V3 →ₗ[ℝ] V3 := { toFun := f, map_add' := h1.map_add, map_smul' := h1.map_smul }
  have hf : Continuous f := l.continuous_of_finiteDimensional
  exact ⟨f, hf, _, h1, fun n => h2 (A n), tracks_move hA hK f hf⟩

/-! ## C86: force and torque -/

/-- C86: refine both arrays, and the force and the torque of `point_matrix_gravity` converge to Newton's double volume
integrals (the two bodies are apart). -/
theorem C86_gravity {A : ι → PtArray} {B : κ → PtArray} {b c : Body} {S T : Set V3} (hA : Tracks F A b S)
    (hB : Tracks G B c T) (hS : IsCompact S) (hT : IsCompact T) (h : Disjoint S T) :
    ∃ f t : ι × κ → V3, (∀ᶠ n in F ×ˢ G, point_matrix_gravity (A n.1) (B n.2) = some (f n, t n)) ∧
      (∀ i, Tendsto (fun n => f n i) (F ×ˢ G) (𝓝 (b.force BIG_G c i))) ∧
      (∀ i, Tendsto (fun n => t n i) (F ×ˢ G) (𝓝 (b.torque BIG_G c i))) := by
  refine ⟨fun n => totF gW (A n.1) (B n.2), fun n => totT gW (A n.1) (B n.2), ?_, fun i => ?_, fun i => ?_⟩
  · filter_upwards [tracks_apart hA hB h] with n hn
    exact pmg_some hn
  · have h1 := (tracks_force hA hB hS hT h BIG_G (fun r => 1 / r ^ 3)
      (continuousOn_const.div (by fun_prop) fun r hr => pow_ne_zero _ hr) gW (fun p q => by rw [gW]; ring) i).1
    convert h1 using 2
    simp only [Body.force]
    congr! 11
    ring
  · have h1 := (tracks_force hA hB hS hT h BIG_G (fun r => 1 / r ^ 3)
      (continuousOn_const.div (by fun_prop) fun r hr => pow_ne_zero _ hr) gW (fun p q => by rw [gW]; ring) i).2
    convert h1 using 2
    simp only [Body.torque]
    congr! 11
    ring

/-- C86 for the Yukawa interaction. -/
theorem C86_yukawa (alpha lmbd : ℝ) (hl : lmbd ≠ 0) {A : ι → PtArray} {B : κ → PtArray} {b c : Body} {S T : Set V3}
    (hA : Tracks F A b S) (hB : Tracks G B c T) (hS : IsCompact S) (hT : IsCompact T) (h : Disjoint S T) :
    ∃ f t : ι × κ → V3, (∀ᶠ n in F ×ˢ G, point_matrix_yukawa (A n.1) (B n.2) alpha lmbd = some (f n, t n)) ∧
      (∀ i, Tendsto (fun n => f n i) (F ×ˢ G) (𝓝 (b.yukawaForce alpha lmbd BIG_G c i))) ∧
      (∀ i, Tendsto (fun n => t n i) (F ×ˢ G) (𝓝 (b.yukawaTorque alpha lmbd BIG_G c i))) := by
  have hk : ContinuousOn (fun r : ℝ => Real.exp (-r / lmbd) * (1 / r ^ 3 + 1 / (r ^ 2 * lmbd))) {r | r ≠ 0} := by
    refine ContinuousOn.mul (by fun_prop) (ContinuousOn.add ?_ ?_)
    · exact continuousOn_const.div (by fun_prop) fun r hr => pow_ne_zero _ hr
    · exact continuousOn_const.div (by fun_prop) fun r hr => mul_ne_zero (pow_ne_zero _ hr) hl
  have hw : ∀ p q, yW alpha lmbd p q = (alpha * BIG_G) * p.mass * q.mass *
      (Real.exp (-modulus (q.pos - p.pos) / lmbd) * (1 / modulus (q.pos - p.pos) ^ 3 + 1 / (modulus (q.pos - p.pos) ^ 2 * lmbd))) := by
    intro p q; rw [yW]; ring
  have hr : ∀ r u : ℝ, Real.exp (-r / lmbd) * (1 + r / lmbd) * u / r ^ 3
      = Real.exp (-r / lmbd) * (1 / r ^ 3 + 1 / (r ^ 2 * lmbd)) * u := by
    intro r u
    rcases eq_or_ne r 0 with rfl | h0
    · simp
    · field_simp
  refine ⟨fun n => totF (yW alpha lmbd) (A n.1) (B n.2), fun n => totT (yW alpha lmbd) (A n.1) (B n.2), ?_, fun i => ?_, fun i => ?_⟩
  · filter_upwards [tracks_apart hA hB h] with n hn
    exact pmy_some hl hn
  · have h1 := (tracks_force hA hB hS hT h (alpha * BIG_G) _ hk (yW alpha lmbd) hw i).1
    simp only [Body.yukawaForce, hr]
    exact h1
  · have h1 := (tracks_force hA hB hS hT h (alpha * BIG_G) _ hk (yW alpha lmbd) hw i).2
    simp only [Body.yukawaTorque, hr]
    exact h1

/-- Point masses and multipoles give the same force and torque: refine the arrays of two bodies, or raise the order of the
multipole expansion of their exact moments, and the limits agree (`b` inside the ball of radius `a`, `c` outside the ball of
radius `R > a`). -/
theorem C86_matches_multipoles {A : ι → PtArray} {B : κ → PtArray} {b c : Body} {S T : Set V3} [F.NeBot] [G.NeBot]
    (hA : Tracks F A b S) (hB : Tracks G B c T) (hS : IsCompact S) (hT : IsCompact T) (h : Disjoint S T) (a R : ℝ) (ha : 0 ≤ a)
    (haR : a < R) (hb : b.InBall a) (hc : c.OffBall R) :
    ∃ (f t : ι × κ → V3) (f' t' : V3) (P : ℕ → Fin 3 → ℂ) (Q : ℕ → ℝ),
      (∀ᶠ n in F ×ˢ G, point_matrix_gravity (A n.1) (B n.2) = some (f n, t n)) ∧
      (∀ L, 1 ≤ L → multipole_force (Mom.ofFn L b.inner) (Mom.ofFn L c.outer) 0 0 0 BIG_G = some (P L)) ∧
      (∀ L, torques_at_angle (torque_lm (Mom.ofFn L b.inner) (Mom.ofFn L c.outer) BIG_G).nc
        (torque_lm (Mom.ofFn L b.inner) (Mom.ofFn L c.outer) BIG_G).ns 0 false = some (Q L)) ∧
      (∀ i, Tendsto (fun n => f n i) (F ×ˢ G) (𝓝 (f' i))) ∧ (∀ i, Tendsto (fun L => P L i) atTop (𝓝 (f' i : ℂ))) ∧
      (∀ i, Tendsto (fun n => t n i) (F ×ˢ G) (𝓝 (t' i))) ∧ Tendsto Q atTop (𝓝 (t' 2)) := by
  obtain ⟨f, t, h1, h2, h3⟩ := C86_gravity hA hB hS hT h
  have hFex : ∀ L, ∃ P, 1 ≤ L → multipole_force (Mom.ofFn L b.inner) (Mom.ofFn L c.outer) 0 0 0 BIG_G = some P := by
    intro L
    by_cases hL : 1 ≤ L
    · obtain ⟨P, _, _, h1, -⟩ := C33_force_is_gradient (Mom.ofFn L b.inner) (Mom.ofFn L c.outer)
        (Body.inner_valid L b) (Body.outer_valid L _) 0 BIG_G (Or.inl hL)
      exact ⟨P, fun _ => h1⟩
    · exact ⟨0, fun h => absurd h hL⟩
  have htex : ∀ L, ∃ q, torques_at_angle (torque_lm (Mom.ofFn L b.inner) (Mom.ofFn L c.outer) BIG_G).nc
      (torque_lm (Mom.ofFn L b.inner) (Mom.ofFn L c.outer) BIG_G).ns 0 false = some q := by
    intro L
    obtain ⟨q, _, h1, -⟩ := C31_torque_is_energy_derivative (Mom.ofFn L b.inner) (Mom.ofFn L c.outer)
      (Body.inner_valid L b) (Body.outer_valid L _) BIG_G 0
    exact ⟨q, h1⟩
  choose P hP using hFex
  choose Q hQ using htex
  have hbt : b.translate 0 = b := by
    rw [Body.translate]
    conv_rhs => rw [← List.map_id b]
    apply List.map_congr_left
    intro p _
    have : p.mu.map (fun v => v + (0 : V3)) = p.mu := by simp
    cases p
    simp only [Piece.move, id, Piece.mk.injEq, true_and]
    exact this
  have hbr : b.rotate 0 0 0 = b := by
    rw [Body.rotate]
    conv_rhs => rw [← List.map_id b]
    apply List.map_congr_left
    intro p _
    have : p.mu.map (fun v => euler 0 0 0 v) = p.mu := by
      have e : (fun v : V3 => euler 0 0 0 v) = id := by
        funext v
        rw [euler_z]
        funext i
        fin_cases i <;> simp [rz]
      rw [e, MeasureTheory.Measure.map_id]
    cases p
    simp only [Piece.move, id, Piece.mk.injEq, true_and]
    exact this
  have h4 := C80_force_converges b c 0 a R ha haR (by rw [hbt]; exact hb) hc P hP
  have h5 := C81_torque_converges b c 0 a R ha haR hb hc Q hQ
  rw [hbt] at h4
  rw [hbr] at h5
  exact ⟨f, t, _, _, P, Q, h1, hP, hQ, h2, h4, h3, h5⟩

/-! ## C87: multipole moments of refined arrays -/

theorem tracks_complex {A : ι → PtArray} {b : Body} {K : Set V3} (hA : Tracks F A b K) (hK : IsCompact K) {f : V3 → ℂ}
    (hf : ContinuousOn f K) :
    Tendsto (fun n => ((A n).map fun p => (p.mass : ℂ) * f p.pos).sum) F
      (𝓝 (b.map fun p => (p.rho : ℂ) * ∫ v, f v ∂p.mu).sum) := by
  have hre := hA.tends (fun v => (f v).re) (Complex.continuous_re.comp_continuousOn hf)
  have him := hA.tends (fun v => (f v).im) (Complex.continuous_im.comp_continuousOn hf)
  have hsum : ∀ B : PtArray, (B.map fun p => (p.mass : ℂ) * f p.pos).sum
      = ((B.map fun p => p.mass * (f p.pos).re).sum : ℝ) + ((B.map fun p => p.mass * (f p.pos).im).sum : ℝ) * Complex.I := by
    intro B
    induction B with
    | nil => simp
    | cons p B ih =>
      simp only [List.map_cons, List.sum_cons]
      rw [ih]
      push_cast
      conv_lhs => rw [← Complex.re_add_im (f p.pos)]
      ring
  have hint : ∀ b' : Body, (∀ p ∈ b', p ∈ b) → (b'.map fun p => (p.rho : ℂ) * ∫ v, f v ∂p.mu).sum
      = (Body.sumOver b' (fun v => (f v).re) : ℝ) + (Body.sumOver b' (fun v => (f v).im) : ℝ) * Complex.I := by
    intro b'
    induction b' with
    | nil => intro _; simp [Body.sumOver]
    | cons p b' ih =>
      intro hb'
      have ih := ih fun q hq => hb' q (by simp [hq])
      simp only [Body.sumOver, List.map_cons, List.sum_cons] at ih ⊢
      rw [ih]
      haveI := p.fin
      have h0 := hA.support p (hb' p (by simp))
      have hi : Integrable f p.mu := by
        have h1 : IntegrableOn f K p.mu := hf.integrableOn_compact hK
        have h2 : p.mu.restrict K = p.mu := Measure.restrict_eq_self_of_ae_mem (by rw [ae_iff]; exact h0)
        rwa [IntegrableOn, h2] at h1
      have e1 : ∫ v, (f v).re ∂p.mu = (∫ v, f v ∂p.mu).re := integral_re hi
      have e2 : ∫ v, (f v).im ∂p.mu = (∫ v, f v ∂p.mu).im := integral_im hi
      rw [e1, e2]
      push_cast
      conv_lhs => rw [← Complex.re_add_im (∫ v, f v ∂p.mu)]
      ring
  rw [hint b fun p hp => hp]
  simp only [hsum]
  have c1 := (Complex.continuous_ofReal.tendsto _).comp hre
  have c2 := ((Complex.continuous_ofReal.tendsto _).comp him).mul_const Complex.I
  exact c1.add c2

/-- C87: the inner moments that `qmoments` finds for the refined arrays converge to those of the body. -/
theorem C87_inner {A : ι → PtArray} {b : Body} {K : Set V3} (hA : Tracks F A b K) (hK : IsCompact K) (L : ℕ) (q : ι → Mom L)
    (hq : ∀ᶠ n in F, qmoments L (A n) = some (q n)) (l : ℕ) (m : ℤ) (hl : l ≤ L) (hm : m.natAbs ≤ L) :
    Tendsto (fun n => (q n).get l m) F (𝓝 (b.inner l m)) := by
  refine (tracks_complex hA hK (continuous_solidS l m).continuousOn).congr' ?_
  filter_upwards [hq] with n hn
  by_cases hK : L = 0 ∨ OriginLast (A n)
  · rw [qmoments_closed L (A n) hK] at hn
    rw [← Option.some.inj hn, Mom.get_ofFn _ hl hm]
    rfl
  · rw [qmoments_none L (A n) (fun h => hK (Or.inl h)) (fun h => hK (Or.inr h))] at hn
    exact absurd hn (by simp)

/-- Away from the origin `qmoments` does succeed. -/
theorem C87_inner_off_origin {A : ι → PtArray} {b : Body} {K : Set V3} (hA : Tracks F A b K) (hK : IsCompact K)
    (h0 : (0 : V3) ∉ K) (L : ℕ) :
    ∃ q : ι → Mom L, (∀ᶠ n in F, qmoments L (A n) = some (q n)) ∧
      ∀ (l : ℕ) (m : ℤ), l ≤ L → m.natAbs ≤ L → Tendsto (fun n => (q n).get l m) F (𝓝 (b.inner l m)) := by
  have hq : ∀ᶠ n in F, qmoments L (A n) = some (Mom.ofFn L (innerMoment (A n))) := by
    filter_upwards [hA.inside] with n hn
    have ho : OffOrigin (A n) := fun p hp e => h0 (e ▸ hn p hp)
    exact qmoments_closed L (A n) (Or.inr ho.originLast)
  exact ⟨_, hq, fun l m hl hm => C87_inner hA hK L _ hq l m hl hm⟩

theorem continuousOn_solidO (l : ℕ) (m : ℤ) {K : Set V3} (h0 : (0 : V3) ∉ K) : ContinuousOn (solidO l m) K := by
  unfold solidO
  refine ContinuousOn.div ?_ ?_ ?_
  · exact (Complex.continuous_conj.comp (continuous_solidS l m)).continuousOn
  · have : Continuous fun v : V3 => ((modulus v ^ (2 * l + 1) : ℝ) : ℂ) := by
      unfold modulus
      exact Complex.continuous_ofReal.comp (by fun_prop)
    exact this.continuousOn
  · intro v hv e
    have : modulus v ^ (2 * l + 1) = 0 := by exact_mod_cast e
    have := pow_eq_zero_iff (by omega) |>.1 this
    rw [modulus_eq_zero] at this
    exact h0 (this ▸ hv)

/-- C87: the outer moments of `Qmomentsb` converge to those of the body, if it keeps away from the origin. -/
theorem C87_outer {A : ι → PtArray} {b : Body} {K : Set V3} (hA : Tracks F A b K) (hK : IsCompact K) (h0 : (0 : V3) ∉ K)
    (L l : ℕ) (m : ℤ) (hl : l ≤ L) (hm : m.natAbs ≤ L) :
    Tendsto (fun n => (Qmomentsb L (A n)).get l m) F (𝓝 (b.outer l m)) := by
  refine (tracks_complex hA hK (continuousOn_solidO l m h0)).congr' ?_
  filter_upwards [hA.inside] with n hn
  have ho : OffOrigin (A n) := fun p hp e => h0 (e ▸ hn p hp)
  rw [Qmomentsb_closed L (A n) ho, Mom.get_ofFn _ hl hm]
  rfl

/-- The two ways of getting the moments of a hollow cylinder agree in the limit: `qmoments` of the array of
`glibShapes.annulus` converges to `qlm.annulus`. -/
theorem C87_annulus (L : ℕ) (mass r1 r2 t : ℝ) (hm : mass ≠ 0) (h1 : 0 < r1) (h2 : r1 < r2) (ht : 0 < t) :
    ∃ (A : ℕ × ℕ → PtArray) (q : ℕ × ℕ → Mom L) (Q : Mom L), Qlm.annulus L mass t r1 r2 0 Real.pi = .ok Q ∧
      (∀ᶠ n in atTop, Shp.annulus mass r1 r2 t n.1 n.2 = .ok (A n) ∧ qmoments L (A n) = some (q n)) ∧
      ∀ (l : ℕ) (m : ℤ), l ≤ L → m.natAbs ≤ L → Tendsto (fun n => (q n).get l m) atTop (𝓝 (Q.get l m)) := by
  have hS := prism_compact t _ (sector_compact r1 r2 0 Real.pi)
  obtain ⟨B, hB, hT⟩ := C86_solid (C84_annulus mass r1 r2 t hm h1.le h2 ht) hS
  have h0 : (0 : V3) ∉ prism t (sector r1 r2 0 Real.pi) := by
    rintro ⟨-, -, r, phi, hr, -, -, -, e0, e1⟩
    simp only [Pi.zero_apply] at e0 e1
    have : r ^ 2 = 0 := by nlinarith [Real.sin_sq_add_cos_sq phi]
    have := pow_eq_zero_iff (two_ne_zero) |>.1 this
    linarith
  obtain ⟨q, hq, hlim⟩ := C87_inner_off_origin hT hS h0 L
  refine ⟨B, q, _, C36_annulus L mass t r1 r2 0 Real.pi ht h1.le h2 Real.pi_pos le_rfl, hB.and hq, fun l m hl hm => ?_⟩
  have := hlim l m hl hm
  rw [Mom.get_ofFn _ hl hm]
  simpa [Body.inner, Body.solid, uniformMoment] using this

/-! ## Instances -/

/-- A refined hollow cylinder and two source masses next to it: the hypotheses of `C86_gravity`, `C86_yukawa` and
`C86_matches_multipoles` hold together. -/
example : ∃ (A : ℕ × ℕ → PtArray) (b : Body) (S T : Set V3) (c : Body) (B : PtArray),
    (∀ᶠ n in atTop, Shp.annulus 2 1 3 5 n.1 n.2 = .ok (A n)) ∧ B.length = 2 ∧
    Tracks atTop A b S ∧ Tracks (atTop : Filter ℕ) (fun _ => B) c T ∧ IsCompact S ∧ IsCompact T ∧ Disjoint S T ∧
    b.InBall 4 ∧ c.OffBall 6 := by
  have hS := prism_compact 5 _ (sector_compact 1 3 0 Real.pi)
  obtain ⟨A, h1, h2⟩ := C86_solid (C84_annulus 2 1 3 5 (by norm_num) (by norm_num) (by norm_num) (by norm_num)) hS
  have hrad : ∀ v ∈ prism 5 (sector 1 3 0 Real.pi), modulus v ≤ 4 := by
    intro v hv
    refine (annulus_radius 5 1 3 0 Real.pi (by norm_num) v hv).trans ?_
    rw [Real.sqrt_le_left (by norm_num)]
    norm_num
  have hm : ∀ p ∈ ([⟨3, ![7, 0, 0]⟩, ⟨4, ![0, 0, -8]⟩] : PtArray), 6 ≤ modulus p.pos := by
    intro p hp
    simp only [List.mem_cons, List.not_mem_nil, or_false] at hp
    rcases hp with rfl | rfl <;> · unfold modulus; apply Real.le_sqrt_of_sq_le; simp only [Matrix.cons_val]; norm_num
  refine ⟨A, _, _, {![7, 0, 0], ![0, 0, -8]}, _, [⟨3, ![7, 0, 0]⟩, ⟨4, ![0, 0, -8]⟩], h1, rfl, h2,
    C86_points _ _ ?_, hS, (Set.toFinite _).isCompact, ?_, solid_inBall _ _ hS _ hrad, (Body.points_offBall _ _).2 hm⟩
  · intro p hp
    simp only [List.mem_cons, List.not_mem_nil, or_false] at hp
    rcases hp with rfl | rfl <;> simp
  · rw [Set.disjoint_left]
    intro v hv hv'
    have h3 := hrad v hv
    simp only [Set.mem_insert_iff, Set.mem_singleton_iff] at hv'
    rcases hv' with rfl | rfl
    · have := hm ⟨3, ![7, 0, 0]⟩ (by simp)
      simp only at this
      linarith
    · have := hm ⟨4, ![0, 0, -8]⟩ (by simp)
      simp only at this
      linarith

/-- `C86_translate` and `C86_append` build assemblies: a hollow cylinder and its copy moved by 10 along x. -/
example : ∃ (A : ℕ × ℕ → PtArray) (b : Body) (K : Set V3), (∀ᶠ n in atTop, Shp.annulus 2 1 3 5 n.1 n.2 = .ok (A n)) ∧
    Tracks atTop (fun n => A n ++ translate_point_array (A n) ![10, 0, 0]) b K := by
  have hS := prism_compact 5 _ (sector_compact 1 3 0 Real.pi)
  obtain ⟨A, h1, h2⟩ := C86_solid (C84_annulus 2 1 3 5 (by norm_num) (by norm_num) (by norm_num) (by norm_num)) hS
  exact ⟨A, _, _, h1, C86_append h2 (C86_translate h2 hS ![10, 0, 0])⟩

end Newt
