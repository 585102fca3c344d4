import Verif.Props.BodyForce
import Verif.Props.Qlm
import Verif.Props.Pg2Multi
import Verif.Spec.Spheres

/-!
# C89: bodies with the same moments are gravitationally the same; spheres act as points
-/

namespace Newt

open Spec MeasureTheory

theorem list_sum_flatMap {α : Type*} (L : List α) (f : α → List ℝ) : (L.flatMap f).sum = (L.map fun a => (f a).sum).sum := by
  induction L with
  | nil => simp
  | cons a L ih => simp [ih]

theorem translate_zero_body (b : Body) : b.translate 0 = b := by
  rw [Body.translate]
  conv_rhs => rw [← List.map_id b]
  apply List.map_congr_left
  intro p _
  have : p.mu.map (fun v => v + (0 : V3)) = p.mu := by simp
  cases p
  simp only [Piece.move, id, Piece.mk.injEq, true_and]
  exact this

theorem rotate_zero_body (b : Body) : b.rotate 0 0 0 = b := by
  rw [Body.rotate]
  conv_rhs => rw [← List.map_id b]
  apply List.map_congr_left
  intro p _
  have : p.mu.map (fun v => euler 0 0 0 v) = p.mu := by
    have e : (fun v : V3 => euler 0 0 0 v) = id := by
      funext v
      rw [euler_z]
      funext i
      fin_cases i <;> simp [rz]
    rw [e, Measure.map_id]
  cases p
  simp only [Piece.move, id, Piece.mk.injEq, true_and]
  exact this

/-- The order-`L` arrays of bodies with the same moments are the same. -/
theorem inner_arrays {b b' : Body} (h : ∀ l m, b.inner l m = b'.inner l m) (L : ℕ) :
    Mom.ofFn L b.inner = Mom.ofFn L b'.inner := by
  congr 1
  funext l m
  exact h l m

theorem force_equal {b b' c : Body} (h : ∀ l m, b.inner l m = b'.inner l m) {a R : ℝ} (ha : 0 ≤ a) (haR : a < R)
    (hb : b.InBall a) (hb' : b'.InBall a) (hc : c.OffBall R) (i : Fin 3) : b.force BIG_G c i = b'.force BIG_G c i := by
  have hFex : ∀ L, ∃ P, 1 ≤ L → multipole_force (Mom.ofFn L b.inner) (Mom.ofFn L c.outer) 0 0 0 BIG_G = some P := by
    intro L
    by_cases hL : 1 ≤ L
    · obtain ⟨P, _, _, h1, -⟩ := C33_force_is_gradient (Mom.ofFn L b.inner) (Mom.ofFn L c.outer)
        (Body.inner_valid L b) (Body.outer_valid L _) 0 BIG_G (Or.inl hL)
      exact ⟨P, fun _ => h1⟩
    · exact ⟨0, fun h => absurd h hL⟩
  choose P hP using hFex
  have h1 := C80_force_converges b c 0 a R ha haR (by rwa [translate_zero_body]) hc P hP i
  have h2 := C80_force_converges b' c 0 a R ha haR (by rwa [translate_zero_body]) hc P
    (fun L hL => by rw [← inner_arrays h]; exact hP L hL) i
  rw [translate_zero_body] at h1 h2
  exact_mod_cast tendsto_nhds_unique h1 h2

theorem torque_equal_z {b b' c : Body} (h : ∀ l m, b.inner l m = b'.inner l m) {a R : ℝ} (ha : 0 ≤ a) (haR : a < R)
    (hb : b.InBall a) (hb' : b'.InBall a) (hc : c.OffBall R) : b.torque BIG_G c 2 = b'.torque BIG_G c 2 := by
  have htex : ∀ L, ∃ q, torques_at_angle (torque_lm (Mom.ofFn L b.inner) (Mom.ofFn L c.outer) BIG_G).nc
      (torque_lm (Mom.ofFn L b.inner) (Mom.ofFn L c.outer) BIG_G).ns 0 false = some q := by
    intro L
    obtain ⟨q, _, h1, -⟩ := C31_torque_is_energy_derivative (Mom.ofFn L b.inner) (Mom.ofFn L c.outer)
      (Body.inner_valid L b) (Body.outer_valid L _) BIG_G 0
    exact ⟨q, h1⟩
  choose Q hQ using htex
  have h1 := C81_torque_converges b c 0 a R ha haR hb hc Q hQ
  have h2 := C81_torque_converges b' c 0 a R ha haR hb' hc Q (fun L => by rw [← inner_arrays h]; exact hQ L)
  rw [rotate_zero_body] at h1 h2
  exact tendsto_nhds_unique h1 h2

/-- A double integral over two pieces carried along by the same map. -/
theorem move_both (p q : Piece) (f : V3 → V3) (hf : Continuous f) (k : V3 → V3 → ℝ) (hk : Measurable (Function.uncurry k)) :
    ∫ x, ∫ y, k x y ∂(q.move f hf).mu ∂(p.move f hf).mu = ∫ x, ∫ y, k (f x) (f y) ∂q.mu ∂p.mu := by
  have := p.fin
  have := q.fin
  have := (q.move f hf).fin
  simp only [Piece.move]
  rw [integral_map hf.measurable.aemeasurable]
  · congr 1
    funext x
    rw [integral_map hf.measurable.aemeasurable]
    exact (hk.comp (measurable_const.prodMk measurable_id)).aestronglyMeasurable
  · have : IsFiniteMeasure (q.mu.map f) := (q.move f hf).fin
    have hs : StronglyMeasurable fun x => ∫ y, k x y ∂(q.mu.map f) := hk.stronglyMeasurable.integral_prod_right
    exact hs.aestronglyMeasurable

/-- A rotation carries the torque along. -/
theorem torque_rotate (b c : Body) (alpha beta gamma : ℝ) (i j : Fin 3)
    (hij : ∀ x y : V3, (crossProduct (euler alpha beta gamma x) (euler alpha beta gamma y - euler alpha beta gamma x)) i
      = (crossProduct x (y - x)) j) :
    (b.rotate alpha beta gamma).torque BIG_G (c.rotate alpha beta gamma) i = b.torque BIG_G c j := by
  simp only [Body.torque, Body.rotate, List.map_map]
  congr 1
  apply List.map_congr_left
  intro p _
  simp only [Function.comp, List.map_map]
  congr 1
  apply List.map_congr_left
  intro q _
  simp only [Function.comp]
  rw [move_both p q _ _ (fun x y => (crossProduct x (y - x)) i / modulus (y - x) ^ 3) ?_]
  · have hmod : ∀ x y : V3, modulus (euler alpha beta gamma y - euler alpha beta gamma x) = modulus (y - x) := by
      intro x y
      rw [euler_eq, ← eul_sub, eul_modulus]
    simp only [hij, hmod]
    rfl
  · exact measurable_torque i

theorem cross_turn_x (x y : V3) :
    (crossProduct (euler 0 (-(Real.pi / 2)) 0 x) (euler 0 (-(Real.pi / 2)) 0 y - euler 0 (-(Real.pi / 2)) 0 x)) 2
      = (crossProduct x (y - x)) 0 := by
  simp only [cross_apply, euler, turnZ, turnY, Matrix.cons_val, Pi.sub_apply, Real.cos_zero, Real.sin_zero, Real.cos_neg,
    Real.sin_neg, Real.cos_pi_div_two, Real.sin_pi_div_two]
  ring

theorem cross_turn_y (x y : V3) :
    (crossProduct (euler 0 (-(Real.pi / 2)) (-(Real.pi / 2)) x)
      (euler 0 (-(Real.pi / 2)) (-(Real.pi / 2)) y - euler 0 (-(Real.pi / 2)) (-(Real.pi / 2)) x)) 2
      = (crossProduct x (y - x)) 1 := by
  simp only [cross_apply, euler, turnZ, turnY, Matrix.cons_val, Pi.sub_apply, Real.cos_zero, Real.sin_zero, Real.cos_neg,
    Real.sin_neg, Real.cos_pi_div_two, Real.sin_pi_div_two]
  ring

theorem rotate_inBall {b : Body} {a : ℝ} (h : b.InBall a) (alpha beta gamma : ℝ) : (b.rotate alpha beta gamma).InBall a := by
  intro p' hp'
  obtain ⟨p, hp, rfl⟩ := List.mem_map.1 hp'
  change (p.mu.map _) _ = 0
  rw [Measure.map_apply (continuous_euler _ _ _).measurable (measurableSet_lt measurable_const modulus_continuous.measurable)]
  simp only [Set.preimage_setOf_eq, euler_eq, eul_modulus]
  exact h p hp

theorem rotate_offBall {b : Body} {a : ℝ} (h : b.OffBall a) (alpha beta gamma : ℝ) :
    (b.rotate alpha beta gamma).OffBall a := by
  intro p' hp'
  obtain ⟨p, hp, rfl⟩ := List.mem_map.1 hp'
  change (p.mu.map _) _ = 0
  rw [Measure.map_apply (continuous_euler _ _ _).measurable (measurableSet_lt modulus_continuous.measurable measurable_const)]
  simp only [Set.preimage_setOf_eq, euler_eq, eul_modulus]
  exact h p hp

theorem inner_rotate_congr {b b' : Body} (h : ∀ l m, b.inner l m = b'.inner l m) (alpha beta gamma : ℝ) (l : ℕ) (m : ℤ) :
    (b.rotate alpha beta gamma).inner l m = (b'.rotate alpha beta gamma).inner l m := by
  by_cases hm : m.natAbs ≤ l
  · have h1 := C56_rotate l b alpha beta gamma
    have h2 := C56_rotate l b' alpha beta gamma
    rw [inner_arrays h, h2, Option.some.injEq] at h1
    have h3 := congrArg (fun q : Mom l => q.get l m) h1
    simpa only [Mom.get_ofFn _ le_rfl hm] using h3.symm
  · rw [Body.inner_out _ _ _ (by omega), Body.inner_out _ _ _ (by omega)]

/-- C89: bodies with the same inner moments (all degrees), whatever their shapes, feel the same energy, force and torque from
everything outside a ball that contains them. -/
theorem C89_moments_determine {b b' c : Body} (h : ∀ (l : ℕ) (m : ℤ), m.natAbs ≤ l → b.inner l m = b'.inner l m) {a R : ℝ}
    (ha : 0 ≤ a) (haR : a < R) (hb : b.InBall a) (hb' : b'.InBall a) (hc : c.OffBall R) :
    b.energy BIG_G c = b'.energy BIG_G c ∧ (∀ i, b.force BIG_G c i = b'.force BIG_G c i) ∧
      ∀ i, b.torque BIG_G c i = b'.torque BIG_G c i := by
  have h : ∀ l m, b.inner l m = b'.inner l m := by
    intro l m
    by_cases hm : m.natAbs ≤ l
    · exact h l m hm
    · rw [Body.inner_out _ _ _ (by omega), Body.inner_out _ _ _ (by omega)]
  refine ⟨?_, force_equal h ha haR hb hb' hc, ?_⟩
  · have h1 := C61_converges b c a R ha haR hb hc
    have h2 := C61_converges b' c a R ha haR hb' hc
    simp only [inner_arrays h] at h1
    exact_mod_cast tendsto_nhds_unique h1 h2
  · intro i
    fin_cases i
    · change b.torque BIG_G c 0 = b'.torque BIG_G c 0
      rw [← torque_rotate b c 0 (-(Real.pi / 2)) 0 2 0 cross_turn_x, ← torque_rotate b' c 0 (-(Real.pi / 2)) 0 2 0 cross_turn_x]
      exact torque_equal_z (inner_rotate_congr h _ _ _) ha haR (rotate_inBall hb _ _ _) (rotate_inBall hb' _ _ _)
        (rotate_offBall hc _ _ _)
    · change b.torque BIG_G c 1 = b'.torque BIG_G c 1
      rw [← torque_rotate b c 0 (-(Real.pi / 2)) (-(Real.pi / 2)) 2 1 cross_turn_y,
        ← torque_rotate b' c 0 (-(Real.pi / 2)) (-(Real.pi / 2)) 2 1 cross_turn_y]
      exact torque_equal_z (inner_rotate_congr h _ _ _) ha haR (rotate_inBall hb _ _ _) (rotate_inBall hb' _ _ _)
        (rotate_offBall hc _ _ _)
    · exact torque_equal_z h ha haR hb hb' hc

/-! ## Spheres -/

/-- C89: the moments `qlm.sphere` returns are those `qmoments` finds for a point mass at the centre, at every order. -/
theorem C89_sphere_moments (L : ℕ) (mass R : ℝ) : qmoments L [⟨mass, 0⟩] = some (Qlm.sphere L mass R) := by
  rw [qmoments_closed L [⟨mass, 0⟩] (Or.inr ⟨[], [⟨mass, 0⟩], rfl, by simp, by simp⟩), Option.some.injEq]
  apply Mom.ext_get
  intro l m hl hm
  rw [Qlm.sphere, Mom.get_ofFn _ hl hm, Mom.get_ofFn _ hl hm]
  rcases Nat.eq_zero_or_pos l with rfl | h
  · simp only [innerMoment, List.map_cons, List.map_nil, List.sum_cons, List.sum_nil, add_zero, solidS_zero, true_and]
    split_ifs
    · push_cast; ring
    · ring
  · rw [innerMoment_origin _ (by simp) l (by omega), if_neg (by omega)]

theorem sphere_inner (mass R : ℝ) (hR : 0 < R) (l : ℕ) (m : ℤ) (hm : m.natAbs ≤ l) :
    (Body.solid mass (ball R) (ball_compact R)).inner l m = (Body.points [⟨mass, 0⟩]).inner l m := by
  have h1 := C89_sphere_moments l mass R
  rw [qmoments_closed l [⟨mass, 0⟩] (Or.inr ⟨[], [⟨mass, 0⟩], rfl, by simp, by simp⟩), Option.some.injEq, C36_sphere l mass R hR] at h1
  have h2 := congrArg (fun q : Mom l => q.get l m) h1
  simp only [Mom.get_ofFn _ le_rfl hm] at h2
  rw [Body.inner_solid, Body.inner_points, h2]

/-- C89: a uniform sphere around the origin feels the energy, force and torque of the point mass at its centre, from any
body that stays outside it. -/
theorem C89_sphere_at_origin (mass R : ℝ) (hR : 0 < R) (c : Body) (D : ℝ) (hD : R < D) (hc : c.OffBall D) :
    (Body.solid mass (ball R) (ball_compact R)).energy BIG_G c = (Body.points [⟨mass, 0⟩]).energy BIG_G c ∧
    (∀ i, (Body.solid mass (ball R) (ball_compact R)).force BIG_G c i = (Body.points [⟨mass, 0⟩]).force BIG_G c i) ∧
    ∀ i, (Body.solid mass (ball R) (ball_compact R)).torque BIG_G c i = (Body.points [⟨mass, 0⟩]).torque BIG_G c i := by
  refine C89_moments_determine (fun l m hm => sphere_inner mass R hR l m hm) hR.le hD ?_ ?_ hc
  · apply solid_inBall
    intro v hv
    exact hv
  · intro p hp
    simp only [Body.points, List.map_cons, List.map_nil, List.mem_singleton] at hp
    subst hp
    change Measure.dirac (0 : V3) _ = 0
    rw [Measure.dirac_apply' _ (measurableSet_lt measurable_const modulus_continuous.measurable)]
    have : modulus (0 : V3) = 0 := (modulus_eq_zero 0).2 rfl
    simp [this, hR.le]

/-! ## Moving both bodies, and exchanging them -/

theorem pair_integrable (p q : Piece) {S T : Set V3} (hS : IsCompact S) (hT : IsCompact T) (h1 : p.mu Sᶜ = 0) (h2 : q.mu Tᶜ = 0)
    (k : V3 → V3 → ℝ) (hk : ContinuousOn (Function.uncurry k) (S ×ˢ T)) : Integrable (Function.uncurry k) (p.mu.prod q.mu) := by
  have := p.fin
  have := q.fin
  have h3 : IntegrableOn (Function.uncurry k) (S ×ˢ T) (p.mu.prod q.mu) := hk.integrableOn_compact (hS.prod hT)
  have h4 : (p.mu.prod q.mu).restrict (S ×ˢ T) = p.mu.prod q.mu := by
    apply Measure.restrict_eq_self_of_ae_mem
    rw [ae_iff]
    refine measure_mono_null (t := (Sᶜ ×ˢ Set.univ) ∪ (Set.univ ×ˢ Tᶜ)) ?_ ?_
    · rintro ⟨x, y⟩ hxy
      simp only [Set.mem_setOf_eq, Set.mem_prod, not_and_or] at hxy
      simpa using hxy
    · rw [measure_union_null_iff, Measure.prod_prod, Measure.prod_prod, h1, h2, zero_mul, mul_zero]
      exact ⟨rfl, rfl⟩
  rwa [IntegrableOn, h4] at h3

theorem kernel_cont {S T : Set V3} (h : Disjoint S T) (g : V3 → V3 → ℝ) (hg : Continuous (Function.uncurry g)) (n : ℕ) :
    ContinuousOn (Function.uncurry fun x y : V3 => g x y / modulus (y - x) ^ n) (S ×ˢ T) := by
  refine ContinuousOn.div hg.continuousOn ?_ ?_
  · exact ((modulus_continuous.comp (continuous_snd.sub continuous_fst)).pow n).continuousOn
  · rintro ⟨x, y⟩ ⟨hx, hy⟩ h0
    have := eq_zero_of_pow_eq_zero h0
    rw [modulus_eq_zero, sub_eq_zero] at this
    exact Set.disjoint_left.1 h hx (this ▸ hy)

theorem modulus_sub_comm (x y : V3) : modulus (x - y) = modulus (y - x) := by
  unfold modulus
  congr 1
  simp only [Pi.sub_apply]
  ring

/-- Third law for two pieces apart: exchanging them changes the sign of force and torque. -/
theorem pair_force_swap (p q : Piece) {S T : Set V3} (hS : IsCompact S) (hT : IsCompact T) (h : Disjoint S T) (h1 : p.mu Sᶜ = 0)
    (h2 : q.mu Tᶜ = 0) (i : Fin 3) :
    ∫ x, ∫ y, (y - x) i / modulus (y - x) ^ 3 ∂q.mu ∂p.mu = -∫ y, ∫ x, (x - y) i / modulus (x - y) ^ 3 ∂p.mu ∂q.mu := by
  have := p.fin
  have := q.fin
  have hc : Continuous (Function.uncurry fun x y : V3 => (y - x) i) :=
    (continuous_apply i).comp (continuous_snd.sub continuous_fst)
  rw [integral_integral_swap (pair_integrable p q hS hT h1 h2 _ (kernel_cont h _ hc 3)), ← integral_neg]
  congr 1
  funext y
  rw [← integral_neg]
  congr 1
  funext x
  rw [modulus_sub_comm x y, ← neg_div]
  congr 1
  simp

theorem cross_cont (i : Fin 3) : Continuous (Function.uncurry fun x y : V3 => (crossProduct x (y - x)) i) := by
  simp only [Function.uncurry_def, cross_apply]
  fin_cases i <;> simp <;> fun_prop

theorem pair_torque_swap (p q : Piece) {S T : Set V3} (hS : IsCompact S) (hT : IsCompact T) (h : Disjoint S T) (h1 : p.mu Sᶜ = 0)
    (h2 : q.mu Tᶜ = 0) (i : Fin 3) :
    ∫ x, ∫ y, (crossProduct x (y - x)) i / modulus (y - x) ^ 3 ∂q.mu ∂p.mu
      = -∫ y, ∫ x, (crossProduct y (x - y)) i / modulus (x - y) ^ 3 ∂p.mu ∂q.mu := by
  have := p.fin
  have := q.fin
  rw [integral_integral_swap (pair_integrable p q hS hT h1 h2 _ (kernel_cont h _ (cross_cont i) 3)), ← integral_neg]
  congr 1
  funext y
  rw [← integral_neg]
  congr 1
  funext x
  rw [modulus_sub_comm x y, ← neg_div]
  congr 1
  simp only [cross_apply]
  fin_cases i <;> simp <;> ring

/-- Moving two pieces together adds `d` times the force to the torque. -/
theorem pair_torque_move (p q : Piece) {S T : Set V3} (hS : IsCompact S) (hT : IsCompact T) (h : Disjoint S T) (h1 : p.mu Sᶜ = 0)
    (h2 : q.mu Tᶜ = 0) (d : V3) (i : Fin 3) :
    ∫ x, ∫ y, (crossProduct (x + d) (y + d - (x + d))) i / modulus (y + d - (x + d)) ^ 3 ∂q.mu ∂p.mu
      = (∫ x, ∫ y, (crossProduct x (y - x)) i / modulus (y - x) ^ 3 ∂q.mu ∂p.mu)
        + (crossProduct d fun j => ∫ x, ∫ y, (y - x) j / modulus (y - x) ^ 3 ∂q.mu ∂p.mu) i := by
  have := p.fin
  have := q.fin
  have hF : ∀ j, Integrable (Function.uncurry fun x y : V3 => (y - x) j / modulus (y - x) ^ 3) (p.mu.prod q.mu) := fun j =>
    pair_integrable p q hS hT h1 h2 _ (kernel_cont h (fun x y => (y - x) j)
      ((continuous_apply j).comp (continuous_snd.sub continuous_fst)) 3)
  have hF' : ∀ j, Integrable (fun z : V3 × V3 => (z.2 - z.1) j / modulus (z.2 - z.1) ^ 3) (p.mu.prod q.mu) := hF
  have hT' := pair_integrable p q hS hT h1 h2 _ (kernel_cont h _ (cross_cont i) 3)
  have hT'' : Integrable (fun z : V3 × V3 => (crossProduct z.1 (z.2 - z.1)) i / modulus (z.2 - z.1) ^ 3) (p.mu.prod q.mu) := hT'
  have key : ∀ a b : Fin 3, ∀ u w : ℝ, (∀ x y : V3, (crossProduct (x + d) (y + d - (x + d))) i =
      (crossProduct x (y - x)) i + (u * (y - x) a - w * (y - x) b)) →
      ∫ x, ∫ y, (crossProduct (x + d) (y + d - (x + d))) i / modulus (y + d - (x + d)) ^ 3 ∂q.mu ∂p.mu
      = (∫ x, ∫ y, (crossProduct x (y - x)) i / modulus (y - x) ^ 3 ∂q.mu ∂p.mu)
        + (u * (∫ x, ∫ y, (y - x) a / modulus (y - x) ^ 3 ∂q.mu ∂p.mu)
          - w * ∫ x, ∫ y, (y - x) b / modulus (y - x) ^ 3 ∂q.mu ∂p.mu) := by
    intro a b u w he
    rw [integral_integral hT', integral_integral (hF a), integral_integral (hF b), ← integral_const_mul, ← integral_const_mul,
      ← integral_sub ((hF' a).const_mul u) ((hF' b).const_mul w)]
    refine Eq.trans ?_ (integral_add hT'' (((hF' a).const_mul u).sub ((hF' b).const_mul w)))
    have e : ∀ x y : V3, (crossProduct (x + d) (y + d - (x + d))) i / modulus (y + d - (x + d)) ^ 3
        = (crossProduct x (y - x)) i / modulus (y - x) ^ 3 + (u * ((y - x) a / modulus (y - x) ^ 3)
          - w * ((y - x) b / modulus (y - x) ^ 3)) := by
      intro x y
      rw [he x y, add_sub_add_right_eq_sub]
      ring
    simp only [e]
    rw [integral_integral]
    exact hT'.add (((hF a).const_mul u).sub ((hF b).const_mul w))
  fin_cases i
  · refine (key 2 1 (d 1) (d 2) ?_).trans ?_
    · intro x y; simp [cross_apply]; try ring
    · simp [cross_apply]
  · refine (key 0 2 (d 2) (d 0) ?_).trans ?_
    · intro x y; simp [cross_apply]; try ring
    · simp [cross_apply]
  · refine (key 1 0 (d 0) (d 1) ?_).trans ?_
    · intro x y; simp [cross_apply]; try ring
    · simp [cross_apply]

theorem translate_back (c : Body) (d : V3) : (c.translate (-d)).translate d = c := by
  simp only [Body.translate, List.map_map]
  conv_rhs => rw [← List.map_id c]
  apply List.map_congr_left
  intro p _
  have h : (p.mu.map (fun v => v + -d)).map (fun v => v + d) = p.mu := by
    rw [Measure.map_map (by fun_prop) (by fun_prop)]
    have : (fun v => v + d) ∘ (fun v => v + -d) = (id : V3 → V3) := by funext v; simp
    rw [this, Measure.map_id]
  cases p
  simp only [Function.comp, Piece.move, id, Piece.mk.injEq, true_and]
  exact h

theorem measurable_energy : Measurable (Function.uncurry fun x y : V3 => 1 / modulus (y - x)) :=
  measurable_const.div (modulus_continuous.comp (continuous_snd.sub continuous_fst)).measurable

theorem energy_translate_both (b c : Body) (d : V3) : (b.translate d).energy BIG_G (c.translate d) = b.energy BIG_G c := by
  simp only [Body.energy, Body.translate, List.map_map]
  congr 1
  apply List.map_congr_left
  intro p _
  simp only [Function.comp, List.map_map]
  congr 1
  apply List.map_congr_left
  intro q _
  simp only [Function.comp]
  rw [move_both p q _ _ _ measurable_energy]
  simp only [add_sub_add_right_eq_sub]
  rfl

theorem force_translate (b c : Body) (d : V3) (i : Fin 3) :
    (b.translate d).force BIG_G (c.translate d) i = b.force BIG_G c i := by
  simp only [Body.force, Body.translate, List.map_map]
  congr 1
  apply List.map_congr_left
  intro p _
  simp only [Function.comp, List.map_map]
  congr 1
  apply List.map_congr_left
  intro q _
  simp only [Function.comp]
  rw [move_both p q _ _ _ (measurable_force i)]
  simp only [add_sub_add_right_eq_sub]
  rfl

theorem cross_list {α : Type*} (L : List α) (u : α → ℝ) (w : α → V3) (t : α → ℝ) (d : V3) (i : Fin 3)
    (h : ∀ a ∈ L, u a = t a + (crossProduct d (w a)) i) :
    (L.map u).sum = (L.map t).sum + (crossProduct d fun j => (L.map fun a => w a j).sum) i := by
  induction L with
  | nil =>
    have : (fun _ : Fin 3 => (0 : ℝ)) = 0 := rfl
    simp [this]
  | cons a L ih =>
    have e : (fun j => ((a :: L).map fun a => w a j).sum) = w a + fun j => (L.map fun a => w a j).sum := by
      funext j; simp
    rw [List.map_cons, List.sum_cons, List.map_cons, List.sum_cons, e, map_add, Pi.add_apply, h a (by simp),
      ih fun a ha => h a (by simp [ha])]
    ring

/-- `b` has its mass in the compact set `S` and the pieces of `c` are apart from it. -/
theorem torque_translate (b c : Body) (d : V3) (i : Fin 3) {S : Set V3} (hS : IsCompact S) (hb : ∀ p ∈ b, p.mu Sᶜ = 0)
    (hc : ∀ q ∈ c, ∃ T, IsCompact T ∧ Disjoint S T ∧ q.mu Tᶜ = 0) :
    (b.translate d).torque BIG_G (c.translate d) i = b.torque BIG_G c i + (crossProduct d (b.force BIG_G c)) i := by
  simp only [Body.torque, Body.translate, List.map_map]
  have e : (b.force BIG_G c) = fun j => (b.map fun p => (fun j => (c.map fun q => (fun j => BIG_G * p.rho * q.rho *
      ∫ x, ∫ y, (y - x) j / modulus (y - x) ^ 3 ∂q.mu ∂p.mu) j).sum) j).sum := rfl
  rw [e]
  apply cross_list
  intro p hp
  simp only [Function.comp, List.map_map]
  apply cross_list
  intro q hq
  simp only [Function.comp]
  obtain ⟨T, hT, hd, h0⟩ := hc q hq
  rw [move_both p q _ _ _ (measurable_torque i), pair_torque_move p q hS hT hd (hb p hp) h0 d i]
  have e2 : (fun j => BIG_G * p.rho * q.rho * ∫ x, ∫ y, (y - x) j / modulus (y - x) ^ 3 ∂q.mu ∂p.mu)
      = (BIG_G * p.rho * q.rho) • fun j => ∫ x, ∫ y, (y - x) j / modulus (y - x) ^ 3 ∂q.mu ∂p.mu := by
    funext j; simp
  rw [e2, map_smul, Pi.smul_apply, smul_eq_mul, mul_add]
  rfl

/-- C89: wherever a uniform sphere is, any body that stays outside it acts on it as on the point mass at its centre. -/
theorem C89_sphere (s : Pt) (R : ℝ) (hR : 0 < R) (c : Body) (D : ℝ) (hD : R < D)
    (hc : ∀ q ∈ c, q.mu {v | modulus (v - s.pos) < D} = 0) :
    (Body.sphereAt s R).energy BIG_G c = (Body.points [s]).energy BIG_G c ∧
    (∀ i, (Body.sphereAt s R).force BIG_G c i = (Body.points [s]).force BIG_G c i) ∧
    ∀ i, (Body.sphereAt s R).torque BIG_G c i = (Body.points [s]).torque BIG_G c i := by
  set c' := c.translate (-s.pos) with hc'
  have hcc : c = c'.translate s.pos := (translate_back c s.pos).symm
  have hpt : Body.points [s] = (Body.points [⟨s.mass, 0⟩]).translate s.pos := by
    simp only [Body.points, Body.translate, List.map_cons, List.map_nil, Piece.move, Piece.point]
    congr 1
    simp only [Piece.mk.injEq, true_and]
    rw [Measure.map_dirac' (by fun_prop), zero_add]
  have hoff : c'.OffBall D := by
    intro q' hq'
    obtain ⟨q, hq, rfl⟩ := List.mem_map.1 hq'
    change (q.mu.map fun v => v + -s.pos) _ = 0
    rw [Measure.map_apply (by fun_prop) (measurableSet_lt modulus_continuous.measurable measurable_const)]
    simpa [sub_eq_add_neg] using hc q hq
  obtain ⟨h1, h2, h3⟩ := C89_sphere_at_origin s.mass R hR c' D hD hoff
  have hapart : ∀ q ∈ c', ∃ T, IsCompact T ∧ Disjoint (ball R) T ∧ q.mu Tᶜ = 0 := by
    intro q hq
    obtain ⟨K, hK, h0⟩ := q.supp
    refine ⟨K ∩ {v | D ≤ modulus v}, hK.inter_right (isClosed_le continuous_const modulus_continuous), ?_, ?_⟩
    · rw [Set.disjoint_left]
      intro v hv hv'
      have h4 : modulus v ≤ R := hv
      have h5 : D ≤ modulus v := hv'.2
      linarith
    · rw [Set.compl_inter]
      refine measure_union_null h0 ?_
      have := hoff q hq
      convert this using 2
      ext v
      simp
  rw [hcc, hpt]
  refine ⟨?_, fun i => ?_, fun i => ?_⟩
  · rw [Body.sphereAt, energy_translate_both, energy_translate_both, h1]
  · rw [Body.sphereAt, force_translate, force_translate, h2]
  · rw [Body.sphereAt, torque_translate _ _ _ _ (ball_compact R) ?_ hapart, torque_translate _ _ _ _ (ball_compact R) ?_ hapart, h3]
    · rw [show Body.force BIG_G (Body.solid s.mass (ball R) (ball_compact R)) c' = Body.force BIG_G (Body.points [⟨s.mass, 0⟩]) c' from
        funext h2]
    · intro p hp
      simp only [Body.points, List.map_cons, List.map_nil, List.mem_singleton] at hp
      subst hp
      change Measure.dirac (0 : V3) _ = 0
      rw [Measure.dirac_apply' _ (ball_compact R).isClosed.measurableSet.compl]
      have : (0 : V3) ∈ ball R := by
        change modulus 0 ≤ R
        rw [(modulus_eq_zero 0).2 rfl]; exact hR.le
      simp [this]
    · intro p hp
      simp only [Body.solid, List.mem_singleton] at hp
      subst hp
      change volume.restrict (ball R) (ball R)ᶜ = 0
      rw [Measure.restrict_apply (ball_compact R).isClosed.measurableSet.compl]
      simp

/-- The mass of a uniform sphere lies within its radius of the centre. -/
theorem sphereAt_support (s : Pt) (R : ℝ) : ∀ p ∈ Body.sphereAt s R, p.mu {v | modulus (v - s.pos) ≤ R}ᶜ = 0 := by
  intro p' hp'
  obtain ⟨p, hp, rfl⟩ := List.mem_map.1 hp'
  simp only [Body.solid, List.mem_singleton] at hp
  subst hp
  change ((volume.restrict (ball R)).map fun v => v + s.pos) _ = 0
  have hcl : IsClosed {v : V3 | modulus (v - s.pos) ≤ R} :=
    isClosed_le (modulus_continuous.comp (continuous_id.sub continuous_const)) continuous_const
  rw [Measure.map_apply (by fun_prop) hcl.measurableSet.compl, Measure.restrict_apply ((by fun_prop : Measurable fun v : V3 => v + s.pos)
    hcl.measurableSet.compl)]
  convert measure_empty (μ := (volume : Measure V3))
  ext v
  simp [ball]

theorem sphere_compact (d : V3) (R : ℝ) : IsCompact {v : V3 | modulus (v - d) ≤ R} := by
  have h := (ball_compact R).image (f := fun v : V3 => v + d) (by fun_prop)
  convert h using 1
  ext v
  constructor
  · intro hv
    exact ⟨v - d, hv, by simp⟩
  · rintro ⟨w, hw, rfl⟩
    simpa [ball] using hw

/-- Force and torque on two bodies apart are opposite. -/
theorem force_swap (b c : Body) {S T : Set V3} (hS : IsCompact S) (hT : IsCompact T) (h : Disjoint S T)
    (hb : ∀ p ∈ b, p.mu Sᶜ = 0) (hc : ∀ q ∈ c, q.mu Tᶜ = 0) (i : Fin 3) :
    b.force BIG_G c i = -c.force BIG_G b i ∧ b.torque BIG_G c i = -c.torque BIG_G b i := by
  have key : ∀ f : Piece → Piece → ℝ, ∀ g : Piece → Piece → ℝ, (∀ p ∈ b, ∀ q ∈ c, f p q = -g q p) →
      (b.map fun p => (c.map fun q => f p q).sum).sum = -(c.map fun q => (b.map fun p => g q p).sum).sum := by
    intro f g hfg
    have h1 : (b.map fun p => (c.map fun q => f p q).sum) = b.map fun p => (c.map fun q => -g q p).sum := by
      apply List.map_congr_left
      intro p hp
      congr 1
      apply List.map_congr_left
      intro q hq
      exact hfg p hp q hq
    rw [h1]
    clear h1 hfg hb
    induction b with
    | nil => simp
    | cons p b ih =>
      simp only [List.map_cons, List.sum_cons]
      rw [ih, Spec.Body.list_sum_add]
      have : (c.map fun q => -g q p).sum = -(c.map fun q => g q p).sum := by
        have gen : ∀ c : List Piece, (c.map fun q => -g q p).sum = -(c.map fun q => g q p).sum := by
          intro c
          induction c with
          | nil => simp
          | cons a c ih => simp only [List.map_cons, List.sum_cons, ih]; ring
        exact gen c
      rw [this]
      ring
  constructor
  · apply key
    intro p hp q hq
    rw [pair_force_swap p q hS hT h (hb p hp) (hc q hq) i]
    ring
  · apply key
    intro p hp q hq
    rw [pair_torque_swap p q hS hT h (hb p hp) (hc q hq) i]
    ring

/-- Two uniform spheres apart attract each other as the point masses at their centres. -/
theorem two_spheres (s s' : Pt) (R R' : ℝ) (hR : 0 < R) (hR' : 0 < R') (h : R + R' < modulus (s'.pos - s.pos)) (i : Fin 3) :
    (Body.sphereAt s R).force BIG_G (Body.sphereAt s' R') i = (Body.points [s]).force BIG_G (Body.points [s']) i ∧
    (Body.sphereAt s R).torque BIG_G (Body.sphereAt s' R') i = (Body.points [s]).torque BIG_G (Body.points [s']) i := by
  have tri : ∀ v : V3, modulus (s'.pos - s.pos) ≤ modulus (v - s.pos) + modulus (v - s'.pos) := by
    intro v
    have := modulus_add_le (v - s.pos) (s'.pos - v)
    rw [modulus_sub_comm s'.pos v] at this
    simpa using this
  have hpt : ∀ s : Pt, ∀ p ∈ Body.points [s], p.mu {s.pos}ᶜ = 0 := by
    intro s p hp
    simp only [Body.points, List.map_cons, List.map_nil, List.mem_singleton] at hp
    subst hp
    change Measure.dirac s.pos _ = 0
    rw [Measure.dirac_apply' _ (measurableSet_singleton _).compl]
    simp
  have d1 : Disjoint {s.pos} {v : V3 | modulus (v - s'.pos) ≤ R'} := by
    rw [Set.disjoint_singleton_left]
    intro h1
    have h1 : modulus (s.pos - s'.pos) ≤ R' := h1
    rw [modulus_sub_comm] at h1
    linarith
  have d2 : Disjoint ({s'.pos} : Set V3) {s.pos} := by
    rw [Set.disjoint_singleton]
    intro h1
    rw [h1, sub_self, (modulus_eq_zero 0).2 rfl] at h
    linarith
  obtain ⟨-, f1, t1⟩ := C89_sphere s R hR (Body.sphereAt s' R') (modulus (s'.pos - s.pos) - R') (by linarith) (by
    intro q hq
    refine measure_mono_null ?_ (sphereAt_support s' R' q hq)
    intro v hv hv'
    have h1 : modulus (v - s.pos) < modulus (s'.pos - s.pos) - R' := hv
    have h2 : modulus (v - s'.pos) ≤ R' := hv'
    linarith [tri v])
  obtain ⟨-, f2, t2⟩ := C89_sphere s' R' hR' (Body.points [s]) (modulus (s'.pos - s.pos)) (by linarith) (by
    intro q hq
    refine measure_mono_null ?_ (hpt s q hq)
    intro v hv hv'
    have h1 : modulus (v - s'.pos) < modulus (s'.pos - s.pos) := hv
    rw [Set.mem_singleton_iff.1 hv', modulus_sub_comm] at h1
    exact lt_irrefl _ h1)
  obtain ⟨f3, t3⟩ := force_swap (Body.points [s]) (Body.sphereAt s' R') isCompact_singleton (sphere_compact _ _) d1 (hpt s)
    (sphereAt_support s' R') i
  obtain ⟨f4, t4⟩ := force_swap (Body.points [s']) (Body.points [s]) isCompact_singleton isCompact_singleton d2 (hpt s') (hpt s) i
  exact ⟨by rw [f1, f3, f2, f4, neg_neg], by rw [t1, t3, t2, t4, neg_neg]⟩

theorem force_flatMap {α β : Type*} (A : List α) (B : List β) (f : α → Body) (g : β → Body) (i : Fin 3) :
    Body.force BIG_G (A.flatMap f) (B.flatMap g) i = (A.map fun a => (B.map fun b => (f a).force BIG_G (g b) i).sum).sum ∧
    Body.torque BIG_G (A.flatMap f) (B.flatMap g) i = (A.map fun a => (B.map fun b => (f a).torque BIG_G (g b) i).sum).sum := by
  have key : ∀ k : Piece → Piece → ℝ, ((A.flatMap f).map fun p => ((B.flatMap g).map fun q => k p q).sum).sum =
      (A.map fun a => (B.map fun b => ((f a).map fun p => ((g b).map fun q => k p q).sum).sum).sum).sum := by
    intro k
    have hB : ∀ p, ((B.flatMap g).map fun q => k p q).sum = (B.map fun b => ((g b).map fun q => k p q).sum).sum := by
      intro p
      rw [List.map_flatMap, list_sum_flatMap]
    simp only [hB]
    rw [List.map_flatMap, list_sum_flatMap]
    congr 1
    apply List.map_congr_left
    intro a _
    generalize f a = b
    induction b with
    | nil => simp
    | cons p b ih => simp only [List.map_cons, List.sum_cons]; rw [ih, Spec.Body.list_sum_add]
  exact ⟨key _, key _⟩

/-- C89: assemblies of uniform spheres that do not touch: `point_matrix_gravity` of the point masses at their centres is the
exact force and torque between the solid spheres. -/
theorem C89_spheres (A B : List (Pt × ℝ)) (hA : ∀ s ∈ A, 0 < s.2) (hB : ∀ s ∈ B, 0 < s.2)
    (h : ∀ s ∈ A, ∀ s' ∈ B, s.2 + s'.2 < modulus (s'.1.pos - s.1.pos)) :
    ∃ f t, point_matrix_gravity (A.map Prod.fst) (B.map Prod.fst) = some (f, t) ∧
      (∀ i, (Body.spheres A).force BIG_G (Body.spheres B) i = f i) ∧
      ∀ i, (Body.spheres A).torque BIG_G (Body.spheres B) i = t i := by
  have hap : Apart (A.map Prod.fst) (B.map Prod.fst) := by
    intro a ha b hb e
    obtain ⟨s, hs, rfl⟩ := List.mem_map.1 ha
    obtain ⟨s', hs', rfl⟩ := List.mem_map.1 hb
    have h1 := h s hs s' hs'
    rw [e, sub_self, (modulus_eq_zero 0).2 rfl] at h1
    linarith [hA s hs, hB s' hs']
  obtain ⟨f, t, h1, h2, h3⟩ := C80_points _ _ hap
  have hp : ∀ A : List (Pt × ℝ), Body.points (A.map Prod.fst) = A.flatMap fun s => Body.points [s.1] := by
    intro A
    induction A with
    | nil => rfl
    | cons a A ih => simp only [Body.points, List.map_cons, List.flatMap_cons, List.map_nil] at ih ⊢; rw [ih]; rfl
  have hs : ∀ i, (Body.spheres A).force BIG_G (Body.spheres B) i = (Body.points (A.map Prod.fst)).force BIG_G
      (Body.points (B.map Prod.fst)) i ∧ (Body.spheres A).torque BIG_G (Body.spheres B) i =
      (Body.points (A.map Prod.fst)).torque BIG_G (Body.points (B.map Prod.fst)) i := by
    intro i
    rw [hp, hp, Body.spheres, Body.spheres, (force_flatMap A B _ _ i).1, (force_flatMap A B _ _ i).1,
      (force_flatMap A B _ _ i).2, (force_flatMap A B _ _ i).2]
    constructor
    · congr 1
      apply List.map_congr_left
      intro a ha
      congr 1
      apply List.map_congr_left
      intro b hb
      exact (two_spheres a.1 b.1 a.2 b.2 (hA a ha) (hB b hb) (h a ha b hb) i).1
    · congr 1
      apply List.map_congr_left
      intro a ha
      congr 1
      apply List.map_congr_left
      intro b hb
      exact (two_spheres a.1 b.1 a.2 b.2 (hA a ha) (hB b hb) (h a ha b hb) i).2
  exact ⟨f, t, h1, fun i => by rw [(hs i).1, h2], fun i => by rw [(hs i).2, h3]⟩

/-- Two assemblies that meet the hypotheses of `C89_spheres`: overlapping spheres within an assembly are allowed. -/
example : (∀ s ∈ ([(⟨1, 0⟩, 1), (⟨2, ![1, 0, 0]⟩, 1)] : List (Pt × ℝ)), 0 < s.2) ∧
    (∀ s ∈ ([(⟨5, ![0, 4, 0]⟩, 1)] : List (Pt × ℝ)), 0 < s.2) ∧
    ∀ s ∈ ([(⟨1, 0⟩, 1), (⟨2, ![1, 0, 0]⟩, 1)] : List (Pt × ℝ)), ∀ s' ∈ ([(⟨5, ![0, 4, 0]⟩, 1)] : List (Pt × ℝ)),
      s.2 + s'.2 < modulus (s'.1.pos - s.1.pos) := by
  refine ⟨by simp, by simp, ?_⟩
  intro s hs s' hs'
  simp only [List.mem_cons, List.not_mem_nil, or_false] at hs hs'
  subst hs'
  rcases hs with rfl | rfl <;>
  · rw [modulus, Real.lt_sqrt (by norm_num)]
    simp only [Pi.sub_apply, Matrix.cons_val, Pi.zero_apply]
    norm_num

end Newt
