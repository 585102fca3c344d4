import Verif.Proofs.TwoCentre
import Verif.Props.Shell

/-!
# C98: force and torque from two sets of inner moments

The way the toolkit is used in practice: the inner moments of each body about its own centre, one set translated to outer
moments at a displacement `d` with `translate_q2Q`, then `multipole_force` or `torque_lm`.  C62 is about the energy.
-/

namespace Newt

open Spec MeasureTheory

theorem ne_zero_of_modulus {d : V3} (h : 0 < modulus d) : d ≠ 0 := by
  rintro rfl
  rw [(modulus_eq_zero 0).2 rfl] at h
  exact lt_irrefl _ h

/-- The force computed from the translated inner moments is close to that computed from the true outer moments. -/
theorem two_centre_force (b c : Body) (v d : V3) (a r s : ℝ) (ha : 0 ≤ a) (hs : 0 < s) (hs3 : a + 3 * s + r < modulus d)
    (hb : (b.translate v).InBall a) (hc : c.InBall r) (L : ℕ) (hL : 1 ≤ L) :
    ∃ F F', multipole_force (Mom.ofFn L b.inner) (Mom.ofFn L (trQ (Mom.ofFn L c.inner) d)) (v 0) (v 1) (v 2) BIG_G = some F ∧
      multipole_force (Mom.ofFn L b.inner) (Mom.ofFn L (c.translate d).outer) (v 0) (v 1) (v 2) BIG_G = some F' ∧
      ∀ i, ‖F i - F' i‖ ≤ 14 * ptErr L c (a + 3 * s) r (modulus d) / s * 1 * b.absMass := by
  set Q : Mom L := Mom.ofFn L (trQ (Mom.ofFn L c.inner) d)
  set Q' : Mom L := Mom.ofFn L (c.translate d).outer
  have hQv : Valid Q := trQ_valid _ (Body.inner_valid L c) d
  obtain ⟨F, f, E, h1, h2, h3, h4⟩ := C33_force_is_gradient (Mom.ofFn L b.inner) Q
    (Body.inner_valid L b) hQv v BIG_G (Or.inl hL)
  obtain ⟨F', f', E', h1', h2', h3', h4'⟩ := C33_force_is_gradient (Mom.ofFn L b.inner) Q'
    (Body.inner_valid L b) (Body.outer_valid L _) v BIG_G (Or.inl hL)
  refine ⟨F, F', h1, h1', fun i => ?_⟩
  have hD2 : HasDerivAt (fun t =>
        multipoleEnergy BIG_G (Mom.ofFn L (b.translate (Function.update v i t)).inner) Q -
        multipoleEnergy BIG_G (Mom.ofFn L (b.translate (Function.update v i t)).inner) Q') (F' i - F i) (v i) := by
    have h5 := ((h4 i).ofReal_comp).sub ((h4' i).ofReal_comp)
    rw [h2, h2']
    have e : ((f' i : ℂ) - (f i : ℂ)) = ((-f i : ℝ) : ℂ) - ((-f' i : ℝ) : ℂ) := by push_cast; ring
    rw [e]
    refine h5.congr_of_eventuallyEq (Filter.Eventually.of_forall fun t => ?_)
    simp only [Pi.sub_apply]
    rw [h3, h3', C56_translate]
  rw [norm_sub_rev]
  refine moved_deriv_le Q Q' b (fun x t => x + Function.update v i t) (fun t => by fun_prop) (v i) a 1 s _ hs
    zero_le_one ?_ ?_ (ptErr_nonneg L c d _ r (by positivity) hs3 hc)
    (fun x hx => potE_close L c d _ r (by positivity) hs3 hc x hx) _ hD2
  · intro p hp
    rw [Function.update_eq_self]
    have h5 := InBall.ae hb (p.move (fun x => x + v) (continuous_id.add continuous_const)) (List.mem_map.2 ⟨p, hp, rfl⟩)
    change ∀ᵐ x ∂(p.mu.map fun x => x + v), modulus x ≤ a at h5
    rwa [ae_map_iff (by fun_prop) (isClosed_le modulus_continuous continuous_const).measurableSet] at h5
  · intro p _
    refine Filter.Eventually.of_forall fun x t => ?_
    rw [Function.update_eq_self, add_sub_add_left_eq_sub, one_mul]
    have : Function.update v i t - v = (t - v i) • (Pi.single i 1 : V3) := by
      funext j
      by_cases hj : j = i
      · subst hj; simp
      · simp [Function.update_of_ne hj, Pi.single_eq_of_ne hj]
    rw [this, modulus_smul]
    have h1 : modulus (Pi.single i 1 : V3) = 1 := by fin_cases i <;> simp [modulus]
    rw [h1, mul_one]

/-- The torque computed from the translated inner moments is close to that computed from the true outer moments. -/
theorem two_centre_torque (b c : Body) (d : V3) (phi a r s : ℝ) (ha : 0 ≤ a) (hs : 0 < s) (hs3 : a + 3 * s + r < modulus d)
    (hb : b.InBall a) (hc : c.InBall r) (L : ℕ) :
    ∃ t t' : ℝ,
      torques_at_angle (torque_lm (Mom.ofFn L b.inner) (Mom.ofFn L (trQ (Mom.ofFn L c.inner) d)) BIG_G).nc
        (torque_lm (Mom.ofFn L b.inner) (Mom.ofFn L (trQ (Mom.ofFn L c.inner) d)) BIG_G).ns phi false = some t ∧
      torques_at_angle (torque_lm (Mom.ofFn L b.inner) (Mom.ofFn L (c.translate d).outer) BIG_G).nc
        (torque_lm (Mom.ofFn L b.inner) (Mom.ofFn L (c.translate d).outer) BIG_G).ns phi false = some t' ∧
      |t - t'| ≤ 14 * ptErr L c (a + 3 * s) r (modulus d) / s * a * b.absMass := by
  set Q : Mom L := Mom.ofFn L (trQ (Mom.ofFn L c.inner) d)
  set Q' : Mom L := Mom.ofFn L (c.translate d).outer
  have hQv : Valid Q := trQ_valid _ (Body.inner_valid L c) d
  have hrot : ∀ (s : ℝ) (q' : Mom L), rotate_qlm (Mom.ofFn L b.inner) s 0 0 = some q' →
      Mom.ofFn L (Body.inner (b.map fun p => p.move (fun x => rz s x) (rz_cont s))) = q' := by
    intro s q' h4
    rw [C56_rotate, Option.some.injEq] at h4
    rw [← h4]
    congr 2
    apply List.map_congr_left
    intro p _
    exact move_congr p _ _ (euler_z s).symm
  obtain ⟨t, E, h1, h2, h3⟩ := C31_torque_is_energy_derivative (Mom.ofFn L b.inner) Q
    (Body.inner_valid L b) hQv BIG_G phi
  obtain ⟨t', E', h1', h2', h3'⟩ := C31_torque_is_energy_derivative (Mom.ofFn L b.inner) Q'
    (Body.inner_valid L b) (Body.outer_valid L _) BIG_G phi
  refine ⟨t, t', h1, h1', ?_⟩
  have hD : HasDerivAt (fun s =>
        multipoleEnergy BIG_G (Mom.ofFn L (Body.inner (b.map fun p => p.move (fun x => rz s x) (rz_cont s)))) Q -
        multipoleEnergy BIG_G (Mom.ofFn L (Body.inner (b.map fun p => p.move (fun x => rz s x) (rz_cont s)))) Q')
        ((t' : ℂ) - t) phi := by
    have h5 := (h3.ofReal_comp).sub (h3'.ofReal_comp)
    have e : ((t' : ℂ) - (t : ℂ)) = ((-t : ℝ) : ℂ) - ((-t' : ℝ) : ℂ) := by push_cast; ring
    rw [e]
    refine h5.congr_of_eventuallyEq (Filter.Eventually.of_forall fun s => ?_)
    simp only [Pi.sub_apply]
    obtain ⟨q1, h4, h6⟩ := h2 s
    obtain ⟨q2, h4', h6'⟩ := h2' s
    rw [h6, h6', ← hrot s q1 h4, ← hrot s q2 h4']
  have h7 := moved_deriv_le Q Q' b (fun x s => rz s x) (fun s => rz_cont s) phi a a s _ hs ha ?_ ?_
    (ptErr_nonneg L c d _ r (by positivity) hs3 hc)
    (fun x hx => potE_close L c d _ r (by positivity) hs3 hc x hx) _ hD
  · rw [abs_sub_comm, ← Real.norm_eq_abs]
    rwa [← Complex.ofReal_sub, Complex.norm_real] at h7
  · intro p hp
    filter_upwards [InBall.ae hb p hp] with x hx
    rwa [rz_modulus]
  · intro p hp
    filter_upwards [InBall.ae hb p hp] with x hx s
    exact (rz_lip x s phi).trans (mul_le_mul_of_nonneg_right hx (abs_nonneg _))

/-- C98: the multipole forces computed from the inner moments of two bodies converge to the Newtonian force on the first body
(displaced by `v`) due to the second body displaced by `d`, whenever `|d|` exceeds the sum of the two radii. -/
theorem C98_force (b c : Body) (v d : V3) (a r : ℝ) (ha : 0 ≤ a) (hr : 0 ≤ r) (h : a + r < modulus d)
    (hb : (b.translate v).InBall a) (hc : c.InBall r) :
    ∃ (Q : ∀ L, Mom L) (F : ℕ → Fin 3 → ℂ),
      (∀ L, translate_q2Q (Mom.ofFn L c.inner) d = some (Q L)) ∧
      (∀ L, 1 ≤ L → multipole_force (Mom.ofFn L b.inner) (Q L) (v 0) (v 1) (v 2) BIG_G = some (F L)) ∧
      ∀ i, Filter.Tendsto (fun L => F L i) Filter.atTop (nhds ((b.translate v).force BIG_G (c.translate d) i : ℂ)) := by
  have hd : d ≠ 0 := ne_zero_of_modulus (by linarith)
  set s := (modulus d - (a + r)) / 6 with hsd
  have hs : 0 < s := by rw [hsd]; linarith
  have hs3 : a + 3 * s + r < modulus d := by rw [hsd]; linarith
  have hex : ∀ L, ∃ F F', 1 ≤ L → _ := fun L => by
    by_cases hL : 1 ≤ L
    · obtain ⟨F, F', h⟩ := two_centre_force b c v d a r s ha hs hs3 hb hc L hL
      exact ⟨F, F', fun _ => h⟩
    · exact ⟨0, 0, fun h => absurd h hL⟩
  choose F F' hF using hex
  refine ⟨_, F, fun L => translate_q2Q_closed _ d hd, fun L hL => (hF L hL).1, fun i => ?_⟩
  have hlim := C80_force_converges b (c.translate d) v a (modulus d - r) ha (by linarith) hb (translate_offBall c d r hc) F'
    (fun L hL => (hF L hL).2.1) i
  have hdiff : Filter.Tendsto (fun L => F L i - F' L i) Filter.atTop (nhds 0) := by
    rw [tendsto_zero_iff_norm_tendsto_zero]
    have hz := ((ptErr_tendsto c (a + 3 * s) r (modulus d) (by positivity) hr hs3).const_mul 14).div_const s
    have hz' := ((hz.mul_const 1).mul_const b.absMass)
    simp only [mul_zero, zero_div, zero_mul] at hz'
    refine squeeze_zero' (Filter.Eventually.of_forall fun L => norm_nonneg _) ?_ hz'
    filter_upwards [Filter.eventually_ge_atTop 1] with L hL
    exact (hF L hL).2.2 i
  have := hdiff.add hlim
  simpa using this

/-- C98: the torques computed from the inner moments of two bodies converge to the z torque on the first body turned by `phi`. -/
theorem C98_torque (b c : Body) (d : V3) (phi a r : ℝ) (ha : 0 ≤ a) (hr : 0 ≤ r) (h : a + r < modulus d)
    (hb : b.InBall a) (hc : c.InBall r) :
    ∃ (Q : ∀ L, Mom L) (t : ℕ → ℝ),
      (∀ L, translate_q2Q (Mom.ofFn L c.inner) d = some (Q L)) ∧
      (∀ L, torques_at_angle (torque_lm (Mom.ofFn L b.inner) (Q L) BIG_G).nc
        (torque_lm (Mom.ofFn L b.inner) (Q L) BIG_G).ns phi false = some (t L)) ∧
      Filter.Tendsto t Filter.atTop (nhds ((b.rotate phi 0 0).torque BIG_G (c.translate d) 2)) := by
  have hd : d ≠ 0 := ne_zero_of_modulus (by linarith)
  set s := (modulus d - (a + r)) / 6 with hsd
  have hs : 0 < s := by rw [hsd]; linarith
  have hs3 : a + 3 * s + r < modulus d := by rw [hsd]; linarith
  have hex := fun L => two_centre_torque b c d phi a r s ha hs hs3 hb hc L
  choose t t' ht using hex
  refine ⟨_, t, fun L => translate_q2Q_closed _ d hd, fun L => (ht L).1, ?_⟩
  have hlim := C81_torque_converges b (c.translate d) phi a (modulus d - r) ha (by linarith) hb (translate_offBall c d r hc) t'
    (fun L => (ht L).2.1)
  have hdiff : Filter.Tendsto (fun L => t L - t' L) Filter.atTop (nhds 0) := by
    rw [tendsto_zero_iff_norm_tendsto_zero]
    have hz := ((ptErr_tendsto c (a + 3 * s) r (modulus d) (by positivity) hr hs3).const_mul 14).div_const s
    have hz' := ((hz.mul_const a).mul_const b.absMass)
    simp only [mul_zero, zero_div, zero_mul] at hz'
    exact squeeze_zero (fun L => norm_nonneg _) (fun L => (ht L).2.2) hz'
  have := hdiff.add hlim
  simpa using this

theorem points_translate_body (A : PtArray) (d : V3) : (Body.points A).translate d = Body.points (translate_point_array A d) := by
  simp only [Body.points, Body.translate, translate_point_array, List.map_map]
  refine List.map_congr_left fun p _ => ?_
  simp only [Function.comp, Piece.point, Piece.move, translate_point, Piece.mk.injEq, true_and]
  exact Measure.map_dirac' (by fun_prop) _

theorem points_rotate_z (A : PtArray) (phi : ℝ) : ∃ A', rotate_point_array A phi ![0, 0, 1] = some A' ∧
    (Body.points A).rotate phi 0 0 = Body.points A' := by
  refine ⟨A.map fun p => ⟨p.mass, rz phi p.pos⟩, ?_, ?_⟩
  · rw [rotate_some ez_ne, Option.some.injEq]
    refine List.map_congr_left fun p _ => ?_
    rw [rotF_z]
  · simp only [Body.points, Body.rotate, List.map_map]
    refine List.map_congr_left fun p _ => ?_
    simp only [Function.comp, Piece.point, Piece.move, Piece.mk.injEq, true_and]
    rw [Measure.map_dirac' (continuous_euler _ _ _).measurable, euler_z]

/-- C98 for point arrays, in terms of the API alone: the multipole force and torque computed from the two arrays' own inner
moments converge to what `point_matrix_gravity` computes for the displaced arrays. -/
theorem C98_points (A B : PtArray) (hA0 : ¬ OffAfterOrigin A) (hB0 : ¬ OffAfterOrigin B) (d : V3) (phi a r : ℝ) (ha : 0 ≤ a)
    (hr : 0 ≤ r) (h : a + r < modulus d) (hA : ∀ p ∈ A, modulus p.pos ≤ a) (hB : ∀ p ∈ B, modulus p.pos ≤ r) :
    ∃ (q s Q : ∀ L, Mom L) (F : ℕ → Fin 3 → ℂ) (t : ℕ → ℝ) (A' : PtArray) (f T f' T' : V3),
      (∀ L, qmoments L A = some (q L)) ∧ (∀ L, qmoments L B = some (s L)) ∧ (∀ L, translate_q2Q (s L) d = some (Q L)) ∧
      (∀ L, 1 ≤ L → multipole_force (q L) (Q L) 0 0 0 BIG_G = some (F L)) ∧
      (∀ L, torques_at_angle (torque_lm (q L) (Q L) BIG_G).nc (torque_lm (q L) (Q L) BIG_G).ns phi false = some (t L)) ∧
      point_matrix_gravity A (translate_point_array B d) = some (f, T) ∧
      rotate_point_array A phi ![0, 0, 1] = some A' ∧
      point_matrix_gravity A' (translate_point_array B d) = some (f', T') ∧
      (∀ i, Filter.Tendsto (fun L => F L i) Filter.atTop (nhds (f i : ℂ))) ∧
      Filter.Tendsto t Filter.atTop (nhds (T' 2)) := by
  have key : ∀ (A : PtArray), ¬ OffAfterOrigin A → ∀ L, qmoments L A = some (Mom.ofFn L (Body.points A).inner) := by
    intro A h0 L
    rw [qmoments_closed L A (Or.inr ((originLast_iff A).2 h0)), Option.some.injEq]
    apply Mom.ext_get
    intro l m hl hm
    rw [Mom.get_ofFn _ hl hm, Mom.get_ofFn _ hl hm, Body.inner_points]
  have hbA : (Body.points A).InBall a := (Body.points_inBall A a).2 hA
  have hbB : (Body.points B).InBall r := (Body.points_inBall B r).2 hB
  obtain ⟨Q, F, h1, h2, h3⟩ := C98_force (Body.points A) (Body.points B) 0 d a r ha hr h (by rwa [translate_zero_body]) hbB
  obtain ⟨Q', t, h4, h5, h6⟩ := C98_torque (Body.points A) (Body.points B) d phi a r ha hr h hbA hbB
  have hQ : Q' = Q := by
    funext L
    have := h4 L
    rw [h1 L, Option.some.injEq] at this
    exact this.symm
  subst hQ
  obtain ⟨A', h7, h8⟩ := points_rotate_z A phi
  have hfar : (Body.points (translate_point_array B d)).OffBall (modulus d - r) := by
    rw [← points_translate_body]; exact translate_offBall _ d r hbB
  have hfar' := (Body.points_offBall _ _).1 hfar
  have hA' : ∀ p ∈ A', modulus p.pos ≤ a := by
    rw [← Body.points_inBall, ← h8]
    exact rotate_inBall hbA _ _ _
  have hap : ∀ C : PtArray, (∀ p ∈ C, modulus p.pos ≤ a) → Apart C (translate_point_array B d) := by
    intro C hC p hp s hs he
    have e1 := hC p hp
    have e2 := hfar' s hs
    rw [he] at e1; linarith
  obtain ⟨f, T, h9, h10, -⟩ := C80_points A _ (hap A hA)
  obtain ⟨f', T', h11, -, h12⟩ := C80_points A' _ (hap A' hA')
  refine ⟨_, _, Q', F, t, A', f, T, f', T', key A hA0, key B hB0, h1, fun L hL => by simpa using h2 L hL, h5, h9, h7, h11, ?_, ?_⟩
  · intro i
    have := h3 i
    rwa [translate_zero_body, points_translate_body, h10] at this
  · rwa [h8, points_translate_body, h12] at h6

/-- The hypotheses hold for a dumbbell and a point displaced by 5. -/
example : ∃ A B : PtArray, A ≠ [] ∧ B ≠ [] ∧ ¬ OffAfterOrigin A ∧ ¬ OffAfterOrigin B ∧ (1 : ℝ) + 1 < modulus ![5, 0, 0] ∧
    (∀ p ∈ A, modulus p.pos ≤ 1) ∧ (∀ p ∈ B, modulus p.pos ≤ 1) := by
  have h0 : ¬ OffAfterOrigin ([⟨1, ![1, 0, 0]⟩, ⟨2, ![-1, 0, 0]⟩] : PtArray) := by
    rintro ⟨i, j, p, q, hij, hi, hj, hp, hq⟩
    have := List.mem_of_getElem? hi
    simp only [List.mem_cons, List.not_mem_nil, or_false] at this
    rcases this with rfl | rfl
    · have := congrFun hp 0; simp at this
    · have := congrFun hp 0; simp at this
  have h1 : ¬ OffAfterOrigin ([⟨1, ![0, 1, 0]⟩] : PtArray) := by
    rintro ⟨i, j, p, q, hij, hi, hj, hp, hq⟩
    have := List.mem_of_getElem? hi
    simp only [List.mem_singleton] at this
    subst this
    have := congrFun hp 1; simp at this
  refine ⟨_, _, by simp, by simp, h0, h1, ?_, ?_, ?_⟩
  · rw [modulus, show ((![5, 0, 0] : V3) 0 ^ 2 + (![5, 0, 0] : V3) 1 ^ 2 + (![5, 0, 0] : V3) 2 ^ 2) = 5 ^ 2 by
        simp, Real.sqrt_sq (by norm_num)]
    norm_num
  · intro p hp
    simp only [List.mem_cons, List.not_mem_nil, or_false] at hp
    rcases hp with rfl | rfl <;> simp [modulus]
  · intro p hp
    simp only [List.mem_singleton] at hp
    subst hp; simp [modulus]

end Newt
