import Verif.Spec.BodyForce
import Verif.Proofs.BodyForce
import Verif.Props.BodyEnergy

/-!
# C80, C81: the multipole force and torque between arbitrary bodies

C54 and C55 are about point arrays.  Here the two bodies are arbitrary signed mass distributions
(uniform solids, points, combinations with holes).
-/

namespace Newt

open Spec MeasureTheory

/-- The truncated energy of a moving body, pair by pair. -/
theorem energy_moving (G : ℝ) (b d : Body) (c : V3 → ℝ → V3) (hc : ∀ t, Continuous fun x => c x t) (L : ℕ) (t : ℝ) :
    multipoleEnergy G (Mom.ofFn L (Body.inner (b.map fun p => p.move (fun x => c x t) (hc t)))) (Mom.ofFn L d.outer) =
      (b.map fun p => (d.map fun q => ((-(G * p.rho * q.rho) : ℝ) : ℂ) *
        ∑ l ∈ Finset.range (L + 1), etm p.mu q.mu c l t).sum).sum := by
  rw [multipoleEnergy, pairSum_bodies, List.map_map, ← List.sum_map_mul_left]
  congr 1
  apply List.map_congr_left
  intro p _
  rw [Function.comp, ← List.sum_map_mul_left]
  congr 1
  apply List.map_congr_left
  intro q _
  have hr : (p.move (fun x => c x t) (hc t)).rho = p.rho := rfl
  simp only [etm, Piece.integral_move p _ (hc t) _ (continuous_solidS _ _), hr]
  rw [← Finset.mul_sum]
  push_cast
  ring

theorem re_list_sum (l : List ℂ) : l.sum.re = (l.map Complex.re).sum := by
  induction l with
  | nil => simp
  | cons a l ih => simp [ih]

/-- If the truncated energies of a moving body have derivatives `D L`, these converge to the derivative of
the exact energy. -/
theorem moving_conv (G : ℝ) (b d : Body) (c c' : V3 → ℝ → V3) (dS : ℕ → ℤ → V3 → ℝ → ℂ) (t0 δ a V K R : ℝ)
    (haR : a < R) (hc : ∀ t, Continuous fun x => c x t)
    (hmov : ∀ p ∈ b, Moving p.mu c c' dS t0 δ a V K) (hd : d.OffBall R) (N : ℕ) (E : ℕ → ℝ → ℝ) (D : ℕ → ℝ)
    (hE : ∀ L, N ≤ L → ∀ t, (E L t : ℂ) = multipoleEnergy G
      (Mom.ofFn L (Body.inner (b.map fun p => p.move (fun x => c x t) (hc t)))) (Mom.ofFn L d.outer))
    (hD : ∀ L, N ≤ L → HasDerivAt (E L) (D L) t0) :
    Filter.Tendsto D Filter.atTop (nhds ((b.map fun p => (d.map fun q => -(G * p.rho * q.rho) *
      ∫ x, ∫ y, ((y - c x t0) ⬝ᵥ c' x t0) / modulus (y - c x t0) ^ 3 ∂q.mu ∂p.mu).sum).sum)) := by
  have hlim : Filter.Tendsto (fun L => (b.map fun p => (d.map fun q => -(G * p.rho * q.rho) *
      ∑ l ∈ Finset.range (L + 1), (etm' p.mu q.mu dS l t0).re).sum).sum) Filter.atTop
      (nhds ((b.map fun p => (d.map fun q => -(G * p.rho * q.rho) *
      ∫ x, ∫ y, ((y - c x t0) ⬝ᵥ c' x t0) / modulus (y - c x t0) ^ 3 ∂q.mu ∂p.mu).sum).sum)) := by
    apply tendsto_list_sum
    intro p hp
    apply tendsto_list_sum
    intro q hq
    apply Filter.Tendsto.const_mul
    have := p.fin
    have := q.fin
    exact (((hmov p hp).conv R haR (OffBall.ae hd q hq)).tendsto_sum_nat).comp (Filter.tendsto_add_atTop_nat 1)
  refine hlim.congr' ?_
  filter_upwards [Filter.eventually_ge_atTop N] with L hL
  have hEe : E L = fun t => (b.map fun p => (d.map fun q => -(G * p.rho * q.rho) *
      ∑ l ∈ Finset.range (L + 1), (etm p.mu q.mu c l t).re).sum).sum := by
    funext t
    have h1 := hE L hL t
    rw [energy_moving] at h1
    have h2 := congrArg Complex.re h1
    rw [Complex.ofReal_re] at h2
    rw [h2, re_list_sum, List.map_map]
    congr 1
    apply List.map_congr_left
    intro p _
    rw [Function.comp, re_list_sum, List.map_map]
    congr 1
    apply List.map_congr_left
    intro q _
    rw [Function.comp, Complex.re_ofReal_mul, Complex.re_sum]
  have hder : HasDerivAt (E L) ((b.map fun p => (d.map fun q => -(G * p.rho * q.rho) *
      ∑ l ∈ Finset.range (L + 1), (etm' p.mu q.mu dS l t0).re).sum).sum) t0 := by
    rw [hEe]
    apply hasDerivAt_list_sum
    intro p hp
    apply hasDerivAt_list_sum
    intro q hq
    apply HasDerivAt.const_mul
    apply HasDerivAt.fun_sum
    intro l _
    have := p.fin
    exact hasDerivAt_re ((hmov p hp).etm_deriv l t0 (by simpa using (hmov p hp).pos))
  exact hder.unique (hD L hL)

theorem continuous_dSdir (e : V3) (l : ℕ) (m : ℤ) : Continuous (dSdir e l m) := by
  unfold dSdir
  split_ifs
  · fun_prop
  · refine continuous_const.mul (continuous_finset_sum _ fun a _ => continuous_const.mul (continuous_Rsol' _ _))

theorem update_line (d : V3) (i : Fin 3) (x : V3) (t : ℝ) : x + Function.update d i t =
    (x + Function.update d i 0) + t • (Pi.single i 1 : V3) := by
  rw [add_assoc]
  congr 1
  funext j
  by_cases hj : j = i
  · subst hj; simp
  · simp [Function.update_of_ne hj, Pi.single_eq_of_ne hj]

theorem modulus_single (i : Fin 3) : modulus (Pi.single i 1 : V3) = 1 := by
  fin_cases i <;> simp [modulus]

/-- Translation along a coordinate axis as a motion. -/
theorem moving_translate (p : Piece) (d : V3) (i : Fin 3) (a R : ℝ) (ha : 0 ≤ a) (haR : a < R)
    (hp : ∀ᵐ x ∂p.mu, modulus (x + d) ≤ a) (K : ℝ)
    (hK : ∀ x : V3, (∀ l m (t : ℝ), HasDerivAt (fun t : ℝ => solidS l m (x + t • (Pi.single i 1 : V3)))
        (dSdir (Pi.single i 1) l m (x + t • (Pi.single i 1 : V3))) t) ∧
      ∀ l m (t a : ℝ), m.natAbs ≤ l → 0 < a → modulus (x + t • (Pi.single i 1 : V3)) ≤ a →
        ‖dSdir (Pi.single i 1) l m (x + t • (Pi.single i 1 : V3))‖ ≤ (K / a) * (l * (2 * l + 1)) * a ^ l) :
    Moving p.mu (fun x t => x + Function.update d i t) (fun _ _ => Pi.single i 1)
      (fun l m x t => dSdir (Pi.single i 1) l m (x + Function.update d i t)) (d i) ((R - a) / 2) ((a + R) / 2) 1
      (K / ((a + R) / 2)) := by
  have hup : Function.update d i (d i) = d := Function.update_eq_self i d
  have hin : ∀ x : V3, modulus (x + d) ≤ a → ∀ t, |t - d i| < (R - a) / 2 →
      modulus (x + Function.update d i t) ≤ (a + R) / 2 := by
    intro x hx t ht
    have e : x + Function.update d i t = (x + d) + (t - d i) • (Pi.single i 1 : V3) := by
      have := update_line d i x (d i)
      rw [hup] at this
      rw [update_line d i x t, this, add_assoc (x + Function.update d i 0), ← add_smul]
      congr 2; ring
    rw [e]
    have h1 := modulus_add_le (x + d) ((t - d i) • (Pi.single i 1 : V3))
    rw [modulus_smul, modulus_single] at h1
    linarith
  refine ⟨by linarith, by linarith, fun t => by fun_prop, fun t => by fun_prop, fun l m t => ?_, ?_, ?_, ?_, ?_, ?_⟩
  · exact (continuous_dSdir _ l m).comp (by fun_prop)
  · filter_upwards [hp] with x hx
    exact hin x hx
  · intro x t
    have h1 : HasDerivAt (fun t : ℝ => (x + Function.update d i 0) + t • (Pi.single i 1 : V3)) (Pi.single i 1) t := by
      have := ((hasDerivAt_id t).smul_const (Pi.single i 1 : V3)).const_add (x + Function.update d i 0)
      simpa using this
    simpa only [← update_line] using h1
  · exact Filter.Eventually.of_forall fun x t _ => by rw [modulus_single]
  · intro l m x t
    have := (hK (x + Function.update d i 0)).1 l m t
    simpa only [← update_line] using this
  · filter_upwards [hp] with x hx l m t hm ht
    have := (hK (x + Function.update d i 0)).2 l m t ((a + R) / 2) hm (by linarith)
    simp only [← update_line] at this
    exact this (hin x hx t ht)

theorem move_congr (p : Piece) {f g : V3 → V3} (hf : Continuous f) (hg : Continuous g) (h : f = g) :
    p.move f hf = p.move g hg := by
  subst h; rfl

/-- Change of variables in a double integral with a measurable kernel. -/
theorem move_double (p : Piece) (nu : Measure V3) [IsFiniteMeasure nu] (f : V3 → V3) (hf : Continuous f)
    (k : V3 → V3 → ℝ) (hk : Measurable (Function.uncurry k)) :
    ∫ x, ∫ y, k x y ∂nu ∂(p.move f hf).mu = ∫ x, ∫ y, k (f x) y ∂nu ∂p.mu := by
  change ∫ x, ∫ y, k x y ∂nu ∂(p.mu.map f) = _
  rw [integral_map hf.measurable.aemeasurable]
  exact (StronglyMeasurable.integral_prod_right hk.stronglyMeasurable).aestronglyMeasurable

theorem measurable_force (i : Fin 3) :
    Measurable (Function.uncurry fun x y : V3 => (y - x) i / modulus (y - x) ^ 3) := by
  apply Measurable.div
  · exact ((continuous_apply i).comp (continuous_snd.sub continuous_fst)).measurable
  · exact ((modulus_continuous.comp (continuous_snd.sub continuous_fst)).pow 3).measurable

theorem measurable_torque (i : Fin 3) :
    Measurable (Function.uncurry fun x y : V3 => (crossProduct x (y - x)) i / modulus (y - x) ^ 3) := by
  apply Measurable.div
  · apply Continuous.measurable
    simp only [Function.uncurry_def, cross_apply]
    fin_cases i <;> simp <;> fun_prop
  · exact ((modulus_continuous.comp (continuous_snd.sub continuous_fst)).pow 3).measurable

/-- C80: let the body `b`, displaced by `v`, lie within radius `a` of the origin and let the body `c` lie
outside radius `R > a`.  Then `multipole_force` of the inner moments of `b` and the outer moments of `c`,
evaluated at the displacement `v`, converges as the degree grows to the Newtonian force on the displaced
body. -/
theorem C80_force_converges (b c : Body) (v : V3) (a R : ℝ) (ha : 0 ≤ a) (haR : a < R)
    (hb : (b.translate v).InBall a) (hc : c.OffBall R) (F : ℕ → Fin 3 → ℂ)
    (hF : ∀ L, 1 ≤ L → multipole_force (Mom.ofFn L b.inner) (Mom.ofFn L c.outer) (v 0) (v 1) (v 2) BIG_G = some (F L))
    (i : Fin 3) :
    Filter.Tendsto (fun L => F L i) Filter.atTop (nhds ((b.translate v).force BIG_G c i : ℂ)) := by
  have hex : ∀ L, 1 ≤ L → ∃ (f : ℝ) (E : V3 → ℝ), F L i = f ∧
      (∀ w, (E w : ℂ) = multipoleEnergy BIG_G (Mom.ofFn L (b.translate w).inner) (Mom.ofFn L c.outer)) ∧
      HasDerivAt (fun t => E (Function.update v i t)) (-f) (v i) := by
    intro L hL
    obtain ⟨F', f, E, h1, h2, h3, h4⟩ := C33_force_is_gradient (Mom.ofFn L b.inner) (Mom.ofFn L c.outer)
      (Body.inner_valid L b) (Body.outer_valid L c) v BIG_G (Or.inl hL)
    rw [hF L hL, Option.some.injEq] at h1
    refine ⟨f i, E, by rw [h1, h2], fun w => ?_, h4 i⟩
    rw [h3 w, C56_translate]
  choose! f E h1 h2 h3 using hex
  obtain ⟨K, -, hK⟩ := solidS_dir' (Pi.single i 1)
  have hmov : ∀ p ∈ b, Moving p.mu (fun x t => x + Function.update v i t) (fun _ _ => Pi.single i 1)
      (fun l m x t => dSdir (Pi.single i 1) l m (x + Function.update v i t)) (v i) ((R - a) / 2) ((a + R) / 2) 1
      (K / ((a + R) / 2)) := by
    intro p hp
    refine moving_translate p v i a R ha haR ?_ K hK
    have h5 := InBall.ae hb (p.move (fun x => x + v) (continuous_id.add continuous_const))
      (List.mem_map.2 ⟨p, hp, rfl⟩)
    change ∀ᵐ x ∂(p.mu.map fun x => x + v), modulus x ≤ a at h5
    rwa [ae_map_iff (by fun_prop) (isClosed_le modulus_continuous continuous_const).measurableSet] at h5
  have hlim := moving_conv BIG_G b c _ _ _ (v i) _ _ _ _ R (by linarith) (fun t => by fun_prop) hmov hc 1
    (fun L t => E L (Function.update v i t)) (fun L => -f L) (fun L hL t => h2 L hL _) h3
  have hval : (b.map fun p => (c.map fun q => -(BIG_G * p.rho * q.rho) *
      ∫ x, ∫ y, ((y - (x + Function.update v i (v i))) ⬝ᵥ Pi.single i 1) /
        modulus (y - (x + Function.update v i (v i))) ^ 3 ∂q.mu ∂p.mu).sum).sum =
      -((b.translate v).force BIG_G c i) := by
    rw [Body.force, Body.translate, List.map_map, ← neg_list_sum, List.map_map]
    congr 1
    apply List.map_congr_left
    intro p _
    simp only [Function.comp]
    rw [← neg_list_sum, List.map_map]
    congr 1
    apply List.map_congr_left
    intro q _
    have := q.fin
    simp only [Function.comp]
    rw [move_double p q.mu _ _ _ (measurable_force i), Function.update_eq_self]
    have hr : (p.move (fun x => x + v) (continuous_id.add continuous_const)).rho = p.rho := rfl
    rw [hr]
    simp only [dotProduct_single, mul_one]
    ring
  rw [hval] at hlim
  have h6 := hlim.neg
  simp only [neg_neg] at h6
  refine ((Complex.continuous_ofReal.tendsto _).comp h6).congr' ?_
  filter_upwards [Filter.eventually_ge_atTop 1] with L hL
  exact (h1 L hL).symm

/-- The velocity of a turn about the z axis. -/
theorem rz_vel (x : V3) (t : ℝ) : HasDerivAt (fun t => rz t x) ![-(rz t x) 1, (rz t x) 0, 0] t := by
  rw [hasDerivAt_pi]
  intro j
  fin_cases j
  · refine (((Real.hasDerivAt_cos t).mul_const (x 0)).sub ((Real.hasDerivAt_sin t).mul_const (x 1))).congr_deriv ?_
    simp [rz]; ring
  · refine (((Real.hasDerivAt_sin t).mul_const (x 0)).add ((Real.hasDerivAt_cos t).mul_const (x 1))).congr_deriv ?_
    simp [rz]; ring
  · exact hasDerivAt_const _ _

/-- Rotation about the z axis as a motion. -/
theorem moving_rotate (p : Piece) (phi a : ℝ) (ha : 0 ≤ a) (hp : ∀ᵐ x ∂p.mu, modulus x ≤ a) :
    Moving p.mu (fun x t => rz t x) (fun x t => ![-(rz t x) 1, (rz t x) 0, 0])
      (fun l m x t => -Complex.I * m * Complex.exp (-Complex.I * m * t) * solidS l m x) phi 1 a a 1 := by
  refine ⟨one_pos, ha, fun t => rz_cont t, fun t => ?_, fun l m t => ?_, ?_, fun x t => rz_vel x t, ?_, ?_, ?_⟩
  · have := rz_cont t
    refine continuous_pi fun j => ?_
    fin_cases j
    · exact ((continuous_apply 1).comp this).neg
    · exact (continuous_apply 0).comp this
    · exact continuous_const
  · exact continuous_const.mul (continuous_solidS l m)
  · filter_upwards [hp] with x hx t _
    rw [rz_modulus]; exact hx
  · filter_upwards [hp] with x hx t _
    refine le_trans ?_ hx
    rw [← rz_modulus t x]
    apply Real.sqrt_le_sqrt
    simp
    nlinarith [sq_nonneg ((rz t x) 2)]
  · intro l m x t
    simp only [solidS_rz]
    have h1 : HasDerivAt (fun t : ℝ => Complex.exp (-Complex.I * m * t))
        (Complex.exp (-Complex.I * m * t) * (-Complex.I * m * 1)) t :=
      ((ofReal_deriv t).const_mul (-Complex.I * m)).cexp
    refine (h1.mul_const _).congr_deriv ?_
    ring
  · filter_upwards [hp] with x hx l m t hm _
    have h1 : ‖Complex.exp (-Complex.I * m * t)‖ = 1 := by
      rw [show -Complex.I * (m : ℂ) * t = ((-(m * t) : ℝ) : ℂ) * Complex.I by push_cast; ring]
      exact Complex.norm_exp_ofReal_mul_I _
    rw [norm_mul, norm_mul, norm_mul, norm_neg, Complex.norm_I, h1, one_mul, mul_one, Complex.norm_intCast]
    have h2 : |(m : ℝ)| ≤ l := by
      rw [← Int.cast_abs, ← Int.natCast_natAbs]; exact_mod_cast hm
    calc |(m : ℝ)| * ‖solidS l m x‖ ≤ l * ((2 * l + 1) * modulus x ^ l) := by
          gcongr; exact norm_solidS_le l m x
      _ ≤ l * ((2 * l + 1) * a ^ l) := by
          have := modulus_nonneg x
          gcongr
      _ = _ := by ring

theorem euler_z (psi : ℝ) : euler psi 0 0 = rz psi := by
  rw [euler_eq]
  funext x i
  fin_cases i <;> simp [eul, rz, ry]

/-- C81: let the body `b` lie within radius `a` of the origin and the body `c` outside radius `R > a`.
Then the value of `torques_at_angle` on the amplitudes that `torque_lm` computes from the inner moments of
`b` and the outer moments of `c` converges, as the degree grows, to the z torque about the origin on the
body `b` turned about the z axis by that angle. -/
theorem C81_torque_converges (b c : Body) (phi a R : ℝ) (ha : 0 ≤ a) (haR : a < R)
    (hb : b.InBall a) (hc : c.OffBall R) (t : ℕ → ℝ)
    (ht : ∀ L, torques_at_angle (torque_lm (Mom.ofFn L b.inner) (Mom.ofFn L c.outer) BIG_G).nc
      (torque_lm (Mom.ofFn L b.inner) (Mom.ofFn L c.outer) BIG_G).ns phi false = some (t L)) :
    Filter.Tendsto t Filter.atTop (nhds ((b.rotate phi 0 0).torque BIG_G c 2)) := by
  have hex : ∀ L, ∃ E : ℝ → ℝ,
      (∀ s, (E s : ℂ) = multipoleEnergy BIG_G (Mom.ofFn L (Body.inner (b.map fun p => p.move (fun x => rz s x)
        (rz_cont s)))) (Mom.ofFn L c.outer)) ∧ HasDerivAt E (-t L) phi := by
    intro L
    obtain ⟨t', E, h1, h2, h3⟩ := C31_torque_is_energy_derivative (Mom.ofFn L b.inner) (Mom.ofFn L c.outer)
      (Body.inner_valid L b) (Body.outer_valid L c) BIG_G phi
    rw [ht L, Option.some.injEq] at h1
    rw [← h1] at h3
    refine ⟨E, fun s => ?_, h3⟩
    obtain ⟨q', h4, h5⟩ := h2 s
    rw [C56_rotate, Option.some.injEq] at h4
    rw [h5, ← h4]
    congr 3
    apply List.map_congr_left
    intro p _
    exact move_congr p _ _ (euler_z s)
  choose E h1 h2 using hex
  have hlim := moving_conv BIG_G b c _ _ _ phi _ _ _ _ R haR (fun s => rz_cont s)
    (fun p hp => moving_rotate p phi a ha (InBall.ae hb p hp)) hc 0 E (fun L => -t L) (fun L _ s => h1 L s)
    (fun L _ => h2 L)
  have hval : (b.map fun p => (c.map fun q => -(BIG_G * p.rho * q.rho) *
      ∫ x, ∫ y, ((y - rz phi x) ⬝ᵥ ![-(rz phi x) 1, (rz phi x) 0, 0]) /
        modulus (y - rz phi x) ^ 3 ∂q.mu ∂p.mu).sum).sum = -((b.rotate phi 0 0).torque BIG_G c 2) := by
    rw [Body.torque, Body.rotate, List.map_map, ← neg_list_sum, List.map_map]
    congr 1
    apply List.map_congr_left
    intro p _
    simp only [Function.comp]
    rw [← neg_list_sum, List.map_map]
    congr 1
    apply List.map_congr_left
    intro q _
    have := q.fin
    simp only [Function.comp]
    have hr : (p.move (euler phi 0 0) (continuous_euler phi 0 0)).rho = p.rho := rfl
    rw [hr, move_double p q.mu _ _ _ (measurable_torque 2), euler_z]
    have e : ∀ x y : V3, (crossProduct (rz phi x) (y - rz phi x)) 2 =
        (y - rz phi x) ⬝ᵥ ![-(rz phi x) 1, (rz phi x) 0, 0] := by
      intro x y
      simp [cross_apply, dotProduct, Fin.sum_univ_three]
      ring
    simp only [e]
    ring
  rw [hval] at hlim
  simpa using hlim.neg

/-- The force and torque of bodies made of points are those that `point_matrix_gravity` returns. -/
theorem C80_points (A B : PtArray) (hap : Apart A B) :
    ∃ f T, point_matrix_gravity A B = some (f, T) ∧
      (∀ i, (Body.points A).force BIG_G (Body.points B) i = f i) ∧
      ∀ i, (Body.points A).torque BIG_G (Body.points B) i = T i := by
  have happ : ∀ (l : List V3) i, l.sum i = (l.map fun v => v i).sum := by
    intro l i
    induction l with
    | nil => simp
    | cons a l ih => simp [ih]
  refine ⟨_, _, pmg_some hap, fun i => ?_, fun i => ?_⟩
  · simp only [Body.force, Body.points, List.map_map, Function.comp_def, Piece.point, integral_dirac]
    rw [totF, happ, List.map_map]
    congr 1
    apply List.map_congr_left
    intro p _
    rw [Function.comp, happ, List.map_map]
    congr 1
    apply List.map_congr_left
    intro s _
    simp only [Function.comp, gW, Pi.smul_apply, smul_eq_mul]
    ring
  · simp only [Body.torque, Body.points, List.map_map, Function.comp_def, Piece.point, integral_dirac]
    rw [totT, happ, List.map_map]
    congr 1
    apply List.map_congr_left
    intro p _
    rw [Function.comp, map_list_sum (crossProduct p.pos), happ, List.map_map, List.map_map]
    congr 1
    apply List.map_congr_left
    intro s _
    simp only [Function.comp, gW, map_smul, Pi.smul_apply, smul_eq_mul]
    ring
    · exact map_add _
    · exact map_zero _

/-- The radius of an annulus seen from its centre. -/
theorem annulus_radius (H Ri Ro phic phih : ℝ) (hRi : 0 ≤ Ri) (v : V3)
    (hv : v ∈ prism H (sector Ri Ro phic phih)) : modulus v ≤ Real.sqrt (Ro ^ 2 + (H / 2) ^ 2) := by
  obtain ⟨h1, h2, r, phi, hr1, hr2, -, -, hx, hy⟩ := hv
  simp only at hx hy
  unfold modulus
  apply Real.sqrt_le_sqrt
  rw [hx, hy]
  have e : (r * Real.cos phi) ^ 2 + (r * Real.sin phi) ^ 2 = r ^ 2 := by
    have := Real.cos_sq_add_sin_sq phi
    calc (r * Real.cos phi) ^ 2 + (r * Real.sin phi) ^ 2 = r ^ 2 * (Real.cos phi ^ 2 + Real.sin phi ^ 2) := by ring
      _ = r ^ 2 := by rw [this, mul_one]
  rw [e]
  have h3 : r ^ 2 ≤ Ro ^ 2 := by nlinarith
  have h4 : v 2 ^ 2 ≤ (H / 2) ^ 2 := by nlinarith
  linarith

/-- C80 and C81 with the toolkit's own routines: the annulus moments of `newt/qlm.py` paired with the outer
moments `newt/pg2Multi.py` computes for a point array give, through `multipole_force` and through
`torque_lm` with `torques_at_angle`, values that converge to the exact force and z torque of the points on
the uniform annulus. -/
theorem C80_annulus_points (mass H Ri Ro phic phih : ℝ) (hH : 0 < H) (hRi : 0 ≤ Ri) (hR : Ri < Ro)
    (h0 : 0 < phih) (hpi : phih ≤ Real.pi) (B : PtArray) (D : ℝ) (hD : Real.sqrt (Ro ^ 2 + (H / 2) ^ 2) < D)
    (hB : ∀ p ∈ B, D ≤ modulus p.pos) (phi : ℝ) :
    ∃ (q : ∀ L, Mom L) (F : ℕ → Fin 3 → ℂ) (t : ℕ → ℝ),
      (∀ L, Qlm.annulus L mass H Ri Ro phic phih = .ok (q L)) ∧
      (∀ L, 1 ≤ L → multipole_force (q L) (Qmomentsb L B) 0 0 0 BIG_G = some (F L)) ∧
      (∀ L, torques_at_angle (torque_lm (q L) (Qmomentsb L B) BIG_G).nc
        (torque_lm (q L) (Qmomentsb L B) BIG_G).ns phi false = some (t L)) ∧
      (∀ i, Filter.Tendsto (fun L => F L i) Filter.atTop
        (nhds ((Body.solid mass (prism H (sector Ri Ro phic phih))
          (prism_compact H _ (sector_compact Ri Ro phic phih))).force BIG_G (Body.points B) i : ℂ))) ∧
      Filter.Tendsto t Filter.atTop (nhds (((Body.solid mass (prism H (sector Ri Ro phic phih))
        (prism_compact H _ (sector_compact Ri Ro phic phih))).rotate phi 0 0).torque BIG_G (Body.points B) 2)) := by
  have hS := prism_compact H _ (sector_compact Ri Ro phic phih)
  have hoff : OffOrigin B := by
    intro p hp h
    have h1 := hB p hp
    rw [h, (modulus_eq_zero 0).2 rfl] at h1
    linarith [Real.sqrt_nonneg (Ro ^ 2 + (H / 2) ^ 2)]
  set b := Body.solid mass _ hS with hb
  have e1 : ∀ L, Mom.ofFn L (uniformMoment mass (prism H (sector Ri Ro phic phih))) = Mom.ofFn L b.inner := by
    intro L
    apply Mom.ext_get
    intro l m hl hm
    rw [Mom.get_ofFn _ hl hm, Mom.get_ofFn _ hl hm, Body.inner_solid]
  have e2 : ∀ L, Qmomentsb L B = Mom.ofFn L (Body.points B).outer := by
    intro L
    rw [Qmomentsb_closed L _ hoff]
    apply Mom.ext_get
    intro l m hl hm
    rw [Mom.get_ofFn _ hl hm, Mom.get_ofFn _ hl hm, Body.outer_points]
  have hin : b.InBall (Real.sqrt (Ro ^ 2 + (H / 2) ^ 2)) :=
    solid_inBall _ _ hS _ fun v hv => annulus_radius H Ri Ro phic phih hRi v hv
  have hout : (Body.points B).OffBall D := (Body.points_offBall B D).2 hB
  have hFex : ∀ L, ∃ F, 1 ≤ L → multipole_force (Mom.ofFn L b.inner) (Mom.ofFn L (Body.points B).outer) 0 0 0 BIG_G
      = some F := by
    intro L
    by_cases hL : 1 ≤ L
    · obtain ⟨F, f, E, h1, -⟩ := C33_force_is_gradient (Mom.ofFn L b.inner) (Mom.ofFn L (Body.points B).outer)
        (Body.inner_valid L b) (Body.outer_valid L _) 0 BIG_G (Or.inl hL)
      exact ⟨F, fun _ => h1⟩
    · exact ⟨0, fun h => absurd h hL⟩
  have htex : ∀ L, ∃ t, torques_at_angle (torque_lm (Mom.ofFn L b.inner) (Mom.ofFn L (Body.points B).outer) BIG_G).nc
      (torque_lm (Mom.ofFn L b.inner) (Mom.ofFn L (Body.points B).outer) BIG_G).ns phi false = some t := by
    intro L
    obtain ⟨t, E, h1, -⟩ := C31_torque_is_energy_derivative (Mom.ofFn L b.inner) (Mom.ofFn L (Body.points B).outer)
      (Body.inner_valid L b) (Body.outer_valid L _) BIG_G phi
    exact ⟨t, h1⟩
  choose F hF using hFex
  choose t ht using htex
  refine ⟨fun L => Mom.ofFn L b.inner, F, t, fun L => ?_, fun L hL => ?_, fun L => ?_, fun i => ?_, ?_⟩
  · rw [C36_annulus L mass H Ri Ro phic phih hH hRi hR h0 hpi, e1 L]
  · rw [e2]; exact hF L hL
  · rw [e2]; exact ht L
  · have hbt : b.translate 0 = b := by
      rw [Body.translate]
      conv_rhs => rw [← List.map_id b]
      apply List.map_congr_left
      intro p _
      have : p.mu.map (fun v => v + (0 : V3)) = p.mu := by simp
      cases p
      simp only [Piece.move, id, Piece.mk.injEq, true_and]
      exact this
    have := C80_force_converges b (Body.points B) 0 _ D (Real.sqrt_nonneg _) hD (by rw [hbt]; exact hin) hout F hF i
    rwa [hbt] at this
  · exact C81_torque_converges b (Body.points B) phi _ D (Real.sqrt_nonneg _) hD hin hout t ht

/-- The hypotheses of `C80_annulus_points` hold for an annulus of radius 1 and height 2 and points at
distance 5 and 7. -/
example : (0 : ℝ) < 2 ∧ Real.sqrt (1 ^ 2 + (2 / 2) ^ 2) < (5 : ℝ) ∧
    (∀ p ∈ ([⟨1, ![5, 0, 0]⟩, ⟨2, ![0, 0, 7]⟩] : PtArray), (5 : ℝ) ≤ modulus p.pos) := by
  refine ⟨by norm_num, ?_, ?_⟩
  · rw [show (1 : ℝ) ^ 2 + (2 / 2) ^ 2 = 2 by norm_num]
    rw [Real.sqrt_lt' (by norm_num)]; norm_num
  · intro p hp
    simp only [List.mem_cons, List.not_mem_nil, or_false] at hp
    rcases hp with rfl | rfl
    · rw [modulus, show ((![5, 0, 0] : V3) 0 ^ 2 + (![5, 0, 0] : V3) 1 ^ 2 + (![5, 0, 0] : V3) 2 ^ 2) = 5 ^ 2 by
        simp, Real.sqrt_sq (by norm_num)]
    · rw [modulus, show ((![0, 0, 7] : V3) 0 ^ 2 + (![0, 0, 7] : V3) 1 ^ 2 + (![0, 0, 7] : V3) 2 ^ 2) = 7 ^ 2 by
        simp, Real.sqrt_sq (by norm_num)]
      norm_num

end Newt
