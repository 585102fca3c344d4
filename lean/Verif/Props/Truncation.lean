import Verif.Proofs.TruncErr
import Verif.Props.TwoCentre

/-!
# C115: how far a truncated multipole force or torque can be off

C54, C55, C80 and C81 say that the force and the torque converge.  Here is the rate, with the constant.
-/

namespace Newt

open Spec MeasureTheory

/-- `missed` is the sum over the degrees left out of `l a^(l-1) / R^(l+1)`. -/
theorem C115_missed_series (a R : ℝ) (ha : 0 ≤ a) (haR : a < R) (L : ℕ) :
    HasSum (fun k : ℕ => ((k + (L + 1) : ℕ) : ℝ) * a ^ (k + (L + 1) - 1) / R ^ (k + (L + 1) + 1)) (missed a R L) :=
  missed_hasSum a R ha haR L

/-- It tends to zero as the degree grows. -/
theorem C115_missed_tendsto (a R : ℝ) (ha : 0 ≤ a) (haR : a < R) :
    Filter.Tendsto (missed a R) Filter.atTop (nhds 0) := by
  have hR : 0 < R := by linarith
  have hx : ‖a / R‖ < 1 := by
    rw [Real.norm_eq_abs, abs_of_nonneg (by positivity), div_lt_one hR]; exact haR
  have h1 := tendsto_self_mul_const_pow_of_abs_lt_one (r := a / R) (by rwa [Real.norm_eq_abs] at hx)
  have h2 := tendsto_pow_atTop_nhds_zero_of_abs_lt_one (r := a / R) (by rwa [Real.norm_eq_abs] at hx)
  have h3 := ((h1.mul_const (1 - a / R)).add h2).div_const ((R - a) ^ 2)
  rw [zero_mul, zero_add, zero_div] at h3
  refine h3.congr fun L => ?_
  rw [missed]; ring

/-- C115 (force): let the body `b`, displaced by `v`, lie within radius `a` of the origin and the body `c` outside radius `R > a`.
Then each component of `multipole_force` of their moments to degree `L`, evaluated at `v`, differs from the Newtonian force on the
displaced body by at most `G M M' missed`. -/
theorem C115_force_error (b c : Body) (v : V3) (a R : ℝ) (ha : 0 ≤ a) (haR : a < R)
    (hb : (b.translate v).InBall a) (hc : c.OffBall R) (L : ℕ) (hL : 1 ≤ L) :
    ∃ F, multipole_force (Mom.ofFn L b.inner) (Mom.ofFn L c.outer) (v 0) (v 1) (v 2) BIG_G = some F ∧
      ∀ i, ‖F i - ((b.translate v).force BIG_G c i : ℂ)‖ ≤ BIG_G * b.absMass * c.absMass * missed a R L := by
  obtain ⟨F, f, E, h1, h2, h3, h4⟩ := C33_force_is_gradient (Mom.ofFn L b.inner) (Mom.ofFn L c.outer)
    (Body.inner_valid L b) (Body.outer_valid L c) v BIG_G (Or.inl hL)
  refine ⟨F, h1, fun i => ?_⟩
  have hin : ∀ p ∈ b, ∀ᵐ x ∂p.mu, modulus (x + v) ≤ a := by
    intro p hp
    have h5 := InBall.ae hb (p.move (fun x => x + v) (continuous_id.add continuous_const))
      (List.mem_map.2 ⟨p, hp, rfl⟩)
    change ∀ᵐ x ∂(p.mu.map fun x => x + v), modulus x ≤ a at h5
    rwa [ae_map_iff (by fun_prop) (isClosed_le modulus_continuous continuous_const).measurableSet] at h5
  obtain ⟨K, -, hK⟩ := solidS_dir' (Pi.single i 1)
  have hup : Function.update v i (v i) = v := Function.update_eq_self i v
  have key := moving_error BIG_G b c (fun x t => x + Function.update v i t) (fun _ _ => Pi.single i 1)
    (fun l m x t => dSdir (Pi.single i 1) l m (x + Function.update v i t)) (v i) ((R - a) / 2) ((a + R) / 2) 1
    (K / ((a + R) / 2)) R a 1 (by linarith) (fun t => by fun_prop)
    (fun p hp => moving_translate p v i a R ha haR (hin p hp) K hK) hc L (fun t => E (Function.update v i t)) (-f i)
    ha haR zero_le_one (fun p hp => by simp only [hup]; exact hin p hp)
    (fun p hp => Filter.Eventually.of_forall fun x t _ => by
      have e : x + Function.update v i t - (x + Function.update v i (v i)) = (t - v i) • (Pi.single i 1 : V3) := by
        rw [update_line v i x t, update_line v i x (v i), add_sub_add_left_eq_sub, ← sub_smul]
      simp only [e]
      rw [modulus_smul, modulus_single, one_mul, mul_one])
    (fun t => by rw [h3, C56_translate]; rfl) (h4 i)
  have hval : (b.map fun p => (c.map fun q => -(BIG_G * p.rho * q.rho) *
      ∫ x, ∫ y, ((y - (x + Function.update v i (v i))) ⬝ᵥ Pi.single i 1) /
        modulus (y - (x + Function.update v i (v i))) ^ 3 ∂q.mu ∂p.mu).sum).sum =
      -((b.translate v).force BIG_G c i) := by
    rw [Body.force, Body.translate, List.map_map, ← neg_list_sum, List.map_map]
    congr 1
    apply List.map_congr_left
    intro p _
    simp only [Function.comp]
    rw [← neg_list_sum, List.map_map]
    congr 1
    apply List.map_congr_left
    intro q _
    have := q.fin
    simp only [Function.comp]
    rw [move_double p q.mu _ _ _ (measurable_force i), Function.update_eq_self]
    have hr : (p.move (fun x => x + v) (continuous_id.add continuous_const)).rho = p.rho := rfl
    rw [hr]
    simp only [dotProduct_single, mul_one]
    ring
  rw [hval] at key
  rw [h2, ← Complex.ofReal_sub, Complex.norm_real, Real.norm_eq_abs]
  rw [show -f i - -((b.translate v).force BIG_G c i) = -(f i - (b.translate v).force BIG_G c i) by ring, abs_neg, one_mul,
    abs_of_pos BIG_G_pos] at key
  exact key

/-- C115 (torque): let the body `b` lie within radius `a` of the origin and the body `c` outside radius `R > a`.  Then
`torques_at_angle` of the amplitudes from moments to degree `L` differs from the z torque on the turned body by at most
`G M M' a missed`. -/
theorem C115_torque_error (b c : Body) (phi a R : ℝ) (ha : 0 ≤ a) (haR : a < R) (hb : b.InBall a) (hc : c.OffBall R) (L : ℕ) :
    ∃ t, torques_at_angle (torque_lm (Mom.ofFn L b.inner) (Mom.ofFn L c.outer) BIG_G).nc
        (torque_lm (Mom.ofFn L b.inner) (Mom.ofFn L c.outer) BIG_G).ns phi false = some t ∧
      |t - (b.rotate phi 0 0).torque BIG_G c 2| ≤ BIG_G * b.absMass * c.absMass * (a * missed a R L) := by
  obtain ⟨t, E, h1, h2, h3⟩ := C31_torque_is_energy_derivative (Mom.ofFn L b.inner) (Mom.ofFn L c.outer)
    (Body.inner_valid L b) (Body.outer_valid L c) BIG_G phi
  refine ⟨t, h1, ?_⟩
  have key := moving_error BIG_G b c (fun x t => rz t x) (fun x t => ![-(rz t x) 1, (rz t x) 0, 0])
    (fun l m x t => -Complex.I * m * Complex.exp (-Complex.I * m * t) * solidS l m x) phi 1 a a 1 R a a haR
    (fun s => rz_cont s) (fun p hp => moving_rotate p phi a ha (InBall.ae hb p hp)) hc L E (-t) ha haR ha
    (fun p hp => by filter_upwards [InBall.ae hb p hp] with x hx; rw [rz_modulus]; exact hx)
    (fun p hp => by
      filter_upwards [InBall.ae hb p hp] with x hx s _
      refine (rz_chord x phi s).trans ?_
      gcongr)
    (fun s => by
      obtain ⟨q', h4, h5⟩ := h2 s
      rw [C56_rotate, Option.some.injEq] at h4
      rw [h5, ← h4]
      congr 3
      apply List.map_congr_left
      intro p _
      exact move_congr p _ _ (euler_z s)) h3
  have hval : (b.map fun p => (c.map fun q => -(BIG_G * p.rho * q.rho) *
      ∫ x, ∫ y, ((y - rz phi x) ⬝ᵥ ![-(rz phi x) 1, (rz phi x) 0, 0]) /
        modulus (y - rz phi x) ^ 3 ∂q.mu ∂p.mu).sum).sum = -((b.rotate phi 0 0).torque BIG_G c 2) := by
    rw [Body.torque, Body.rotate, List.map_map, ← neg_list_sum, List.map_map]
    congr 1
    apply List.map_congr_left
    intro p _
    simp only [Function.comp]
    rw [← neg_list_sum, List.map_map]
    congr 1
    apply List.map_congr_left
    intro q _
    have := q.fin
    simp only [Function.comp]
    have hr : (p.move (euler phi 0 0) (continuous_euler phi 0 0)).rho = p.rho := rfl
    rw [hr, move_double p q.mu _ _ _ (measurable_torque 2), euler_z]
    have e : ∀ x y : V3, (crossProduct (rz phi x) (y - rz phi x)) 2 =
        (y - rz phi x) ⬝ᵥ ![-(rz phi x) 1, (rz phi x) 0, 0] := by
      intro x y
      simp [cross_apply, dotProduct, Fin.sum_univ_three]
      ring
    simp only [e]
    ring
  rw [hval] at key
  rw [show -t - -((b.rotate phi 0 0).torque BIG_G c 2) = -(t - (b.rotate phi 0 0).torque BIG_G c 2) by ring, abs_neg,
    abs_of_pos BIG_G_pos] at key
  exact key

theorem absMass_points (A : PtArray) : (Body.points A).absMass = absMass A := by
  rw [Body.absMass, Body.points, List.map_map, absMass]
  congr 1
  apply List.map_congr_left
  intro p _
  simp [Piece.point]

/-- C115 for point arrays, with the toolkit's own routines: `multipole_force` of `qmoments` and `Qmomentsb` against
`point_matrix_gravity` of the displaced array. -/
theorem C115_points_force (A B : PtArray) (d : V3) (a R : ℝ) (ha : 0 ≤ a) (haR : a < R) (hA0 : ¬ OffAfterOrigin A)
    (hA : ∀ p ∈ translate_point_array A d, modulus p.pos ≤ a) (hB : ∀ p ∈ B, R ≤ modulus p.pos) (L : ℕ) (hL : 1 ≤ L) :
    ∃ q F f T, qmoments L A = some q ∧ multipole_force q (Qmomentsb L B) (d 0) (d 1) (d 2) BIG_G = some F ∧
      point_matrix_gravity (translate_point_array A d) B = some (f, T) ∧
      ∀ i, ‖F i - (f i : ℂ)‖ ≤ BIG_G * absMass A * absMass B * missed a R L := by
  have hoff := offOrigin_of_far ha haR hB
  have hap : Apart (translate_point_array A d) B := by
    intro p hp s hs h
    have h1 := hA p hp
    have h2 := hB s hs
    rw [h] at h1; linarith
  have e1 : Mom.ofFn L (innerMoment A) = Mom.ofFn L (Body.points A).inner := by
    apply Mom.ext_get
    intro l m hl hm
    rw [Mom.get_ofFn _ hl hm, Mom.get_ofFn _ hl hm, Body.inner_points]
  have e2 : Qmomentsb L B = Mom.ofFn L (Body.points B).outer := by
    rw [Qmomentsb_closed L _ hoff]
    apply Mom.ext_get
    intro l m hl hm
    rw [Mom.get_ofFn _ hl hm, Mom.get_ofFn _ hl hm, Body.outer_points]
  have hin : ((Body.points A).translate d).InBall a := by
    rw [points_translate_body]; exact (Body.points_inBall _ a).2 hA
  obtain ⟨F, h1, h2⟩ := C115_force_error (Body.points A) (Body.points B) d a R ha haR hin ((Body.points_offBall B R).2 hB) L hL
  obtain ⟨f, T, h3, h4, -⟩ := C80_points _ _ hap
  refine ⟨_, F, f, T, qmoments_closed L A (Or.inr ((originLast_iff A).2 hA0)), by rw [e1, e2]; exact h1, h3, fun i => ?_⟩
  have := h2 i
  rwa [absMass_points, absMass_points, points_translate_body, h4 i] at this

/-- C115 for point arrays: the torque at any angle, against `point_matrix_gravity` of the turned array. -/
theorem C115_points_torque (A B : PtArray) (phi a R : ℝ) (ha : 0 ≤ a) (haR : a < R) (hA0 : ¬ OffAfterOrigin A)
    (hA : ∀ p ∈ A, modulus p.pos ≤ a) (hB : ∀ p ∈ B, R ≤ modulus p.pos) (L : ℕ) :
    ∃ q t A' f T, qmoments L A = some q ∧
      torques_at_angle (torque_lm q (Qmomentsb L B) BIG_G).nc (torque_lm q (Qmomentsb L B) BIG_G).ns phi false = some t ∧
      rotate_point_array A phi ![0, 0, 1] = some A' ∧ point_matrix_gravity A' B = some (f, T) ∧
      |t - T 2| ≤ BIG_G * absMass A * absMass B * (a * missed a R L) := by
  have hoff := offOrigin_of_far ha haR hB
  have e1 : Mom.ofFn L (innerMoment A) = Mom.ofFn L (Body.points A).inner := by
    apply Mom.ext_get
    intro l m hl hm
    rw [Mom.get_ofFn _ hl hm, Mom.get_ofFn _ hl hm, Body.inner_points]
  have e2 : Qmomentsb L B = Mom.ofFn L (Body.points B).outer := by
    rw [Qmomentsb_closed L _ hoff]
    apply Mom.ext_get
    intro l m hl hm
    rw [Mom.get_ofFn _ hl hm, Mom.get_ofFn _ hl hm, Body.outer_points]
  have hbA : (Body.points A).InBall a := (Body.points_inBall A a).2 hA
  obtain ⟨t, h1, h2⟩ := C115_torque_error (Body.points A) (Body.points B) phi a R ha haR hbA ((Body.points_offBall B R).2 hB) L
  obtain ⟨A', h7, h8⟩ := points_rotate_z A phi
  have hA' : ∀ p ∈ A', modulus p.pos ≤ a := by
    rw [← Body.points_inBall, ← h8]
    exact rotate_inBall hbA _ _ _
  have hap : Apart A' B := by
    intro p hp s hs h
    have h1 := hA' p hp
    have h2 := hB s hs
    rw [h] at h1; linarith
  obtain ⟨f, T, h3, -, h4⟩ := C80_points _ _ hap
  refine ⟨_, t, A', f, T, qmoments_closed L A (Or.inr ((originLast_iff A).2 hA0)), by rw [e1, e2]; exact h1, h7, h3, ?_⟩
  rwa [absMass_points, absMass_points, h8, h4 2] at h2

theorem kept_sum (a R : ℝ) (ha : 0 ≤ a) (haR : a < R) (L : ℕ) :
    ∑ l ∈ Finset.range (L + 1), (l : ℝ) * a ^ (l - 1) / R ^ (l + 1) = 1 / (R - a) ^ 2 - missed a R L := by
  have hR : R ≠ 0 := by linarith
  have hne : R - a ≠ 0 := by linarith
  induction L with
  | zero => simp [missed]
  | succ L ih =>
    rw [Finset.sum_range_succ, ih, missed, missed, Nat.add_sub_cancel, div_pow, div_pow, pow_succ, pow_succ R (L + 1), pow_succ R L]
    push_cast
    field_simp
    ring

theorem tm_axis (l : ℕ) (z R : ℝ) (hR : 0 < R) : tm l ![0, 0, z] ![0, 0, R] = z ^ l / R ^ (l + 1) := by
  have h1 : modulus ![0, 0, R] = R := by
    simp [modulus, Real.sqrt_sq hR.le]
  have h2 : modulus ![0, 0, z] ^ 2 = z ^ 2 := by
    rw [modulus_sq]; simp [nsq]
  have h3 : (![0, 0, z] : V3) ⬝ᵥ ![0, 0, R] / R = z := by
    simp [dotProduct, Fin.sum_univ_three, hR.ne']
  rw [tm, h1, h2, h3]
  have h4 := pz_scale z 1 1 l
  rw [mul_one, mul_one, pz_one, mul_one] at h4
  rw [h4, one_div, inv_pow, pow_succ]
  field_simp

/-- C115 (the bound is attained): for two point masses on the same ray from the origin the error of the force is exactly
`G |m| |M| missed`. -/
theorem C115_sharp (m M a R : ℝ) (ha : 0 ≤ a) (haR : a < R) (L : ℕ) (hL : 1 ≤ L) :
    ∃ q F f T, qmoments L [⟨m, ![0, 0, a]⟩] = some q ∧
      multipole_force q (Qmomentsb L [⟨M, ![0, 0, R]⟩]) 0 0 0 BIG_G = some F ∧
      point_matrix_gravity [⟨m, ![0, 0, a]⟩] [⟨M, ![0, 0, R]⟩] = some (f, T) ∧
      ‖F 2 - (f 2 : ℂ)‖ = BIG_G * |m| * |M| * missed a R L := by
  have hR : 0 < R := by linarith
  have hmR : modulus ![0, 0, R] = R := by
    simp [modulus, Real.sqrt_sq hR.le]
  set A : PtArray := [⟨m, ![0, 0, a]⟩] with hA
  set B : PtArray := [⟨M, ![0, 0, R]⟩] with hB
  have hoff : OffOrigin B := by
    intro p hp h
    rw [hB, List.mem_singleton] at hp
    rw [hp] at h
    have := congrFun h 2
    simp at this
    exact hR.ne' this
  have h0 : ¬ OffAfterOrigin A := by
    rintro ⟨i, j, p, q, hij, hi, hj, hp, hq⟩
    rw [hA] at hi hj
    rcases j with _ | j
    · omega
    · simp at hj
  have hap : Apart A B := by
    intro p hp s hs h
    rw [hA, List.mem_singleton] at hp
    rw [hB, List.mem_singleton] at hs
    rw [hp, hs] at h
    have := congrFun h 2
    simp at this
    linarith
  have hq := qmoments_closed L A (Or.inr ((originLast_iff A).2 h0))
  have hQ := Qmomentsb_closed L B hoff
  obtain ⟨F, f, E, h1, h2, h3, h4⟩ := C33_force_is_gradient (Mom.ofFn L (innerMoment A)) (Mom.ofFn L (outerMoment B))
    (innerMoment_valid L A) (outerMoment_valid L B) 0 BIG_G (Or.inl hL)
  obtain ⟨g, T, h5, h6, -⟩ := C80_points A B hap
  refine ⟨_, F, g, T, hq, by rw [hQ]; exact h1, h5, ?_⟩
  have hE : (fun t => E (Function.update (0 : V3) 2 t)) = fun t => -(BIG_G * m * M) *
      ∑ l ∈ Finset.range (L + 1), (a + t) ^ l / R ^ (l + 1) := by
    funext t
    have e := h3 (Function.update (0 : V3) 2 t)
    have e5 : translate_qlm (Mom.ofFn L (innerMoment A)) (Function.update (0 : V3) 2 t) =
        Mom.ofFn L (innerMoment (translate_point_array A (Function.update (0 : V3) 2 t))) := by
      have e6 : ∀ A : PtArray, Mom.ofFn L (innerMoment A) = Mom.ofFn L (Body.points A).inner := by
        intro A
        apply Mom.ext_get
        intro l m hl hm
        rw [Mom.get_ofFn _ hl hm, Mom.get_ofFn _ hl hm, Body.inner_points]
      rw [e6, e6, C56_translate, points_translate_body]
    rw [e5, ptEnergy_eq L _ _ hoff] at e
    have e7 := Complex.ofReal_injective e
    rw [e7, ptEnergy, hA, hB]
    have e8 : (![0, 0, a] : V3) + Function.update (0 : V3) 2 t = ![0, 0, a + t] := by
      funext j; fin_cases j <;> simp
    simp only [translate_point_array, translate_point, List.map_cons, List.map_nil, List.sum_cons, List.sum_nil, add_zero, e8,
      tm_axis _ _ _ hR]
  have hd : HasDerivAt (fun t : ℝ => -(BIG_G * m * M) * ∑ l ∈ Finset.range (L + 1), (a + t) ^ l / R ^ (l + 1))
      (-(BIG_G * m * M) * ∑ l ∈ Finset.range (L + 1), (l : ℝ) * a ^ (l - 1) / R ^ (l + 1)) 0 := by
    apply HasDerivAt.const_mul
    apply HasDerivAt.fun_sum
    intro l _
    have e9 := (((hasDerivAt_id (0 : ℝ)).const_add a).pow l).div_const (R ^ (l + 1))
    simpa using e9
  have h7 := h4 2
  rw [hE] at h7
  have h8 := h7.unique hd
  have h9 : g 2 = BIG_G * m * M / (R - a) ^ 2 := by
    rw [← h6 2]
    have hne : R - a ≠ 0 := by linarith
    have e10 : (![0, 0, R] : V3) - ![0, 0, a] = ![0, 0, R - a] := by
      funext j; fin_cases j <;> simp
    have e11 : modulus ![0, 0, R - a] = R - a := by
      simp [modulus, Real.sqrt_sq (by linarith : 0 ≤ R - a)]
    simp only [Body.force, Body.points, hA, hB, List.map_cons, List.map_nil, List.sum_cons, List.sum_nil, add_zero, Piece.point,
      integral_dirac, e10, e11, Matrix.cons_val]
    field_simp
  rw [kept_sum a R ha haR] at h8
  rw [h2, ← Complex.ofReal_sub, Complex.norm_real, Real.norm_eq_abs, h9,
    show f 2 - BIG_G * m * M / (R - a) ^ 2 = -(BIG_G * m * M * missed a R L) by
      have : f 2 = BIG_G * m * M * (1 / (R - a) ^ 2 - missed a R L) := by linarith
      rw [this]; ring]
  have hmiss : 0 ≤ missed a R L := by
    rw [missed]
    have : a / R ≤ 1 := (div_le_one hR).2 haR.le
    have h11 : (L : ℝ) * (a / R) ≤ L := mul_le_of_le_one_right (Nat.cast_nonneg L) this
    have : 0 ≤ (L : ℝ) + 1 - L * (a / R) := by linarith
    positivity
  rw [abs_neg, abs_mul, abs_mul, abs_mul, abs_of_pos BIG_G_pos, abs_of_nonneg hmiss]

/-- With sources at three times the radius of the test body, moments to degree 10 leave out less than one part in 1000 of `G M M' / R²`. -/
example : missed 1 3 10 < 1 / 1000 * (1 / 3 ^ 2) := by
  rw [missed]; norm_num

end Newt
