import Verif.Proofs.ForceConv
import Verif.Props.GlibPotential

/-!
# Properties C54 and C55: the multipole force and torque converge to the direct sums
-/

namespace Newt

open Spec

/-- The multipole energy of two point arrays, as a double sum of Legendre terms. -/
noncomputable def ptEnergy (L : ℕ) (A B : PtArray) : ℝ :=
  (A.map fun p => (B.map fun s => -(BIG_G * p.mass * s.mass) * ∑ l ∈ Finset.range (L + 1), tm l p.pos s.pos).sum).sum

theorem ptEnergy_eq (L : ℕ) (A B : PtArray) (hB : OffOrigin B) :
    multipoleEnergy BIG_G (Mom.ofFn L (innerMoment A)) (Mom.ofFn L (outerMoment B)) = (ptEnergy L A B : ℂ) := by
  rw [multipoleEnergy, pairSum_points, ptEnergy, ofReal_list_sum, List.map_map, ← List.sum_map_mul_left]
  congr 1
  apply List.map_congr_left
  intro p _
  rw [Function.comp, ofReal_list_sum, List.map_map, ← List.sum_map_mul_left]
  congr 1
  apply List.map_congr_left
  intro s hs
  rw [Function.comp]
  push_cast
  rw [Finset.sum_congr rfl fun l _ => tm_eq l p.pos s.pos (hB s hs), ← Finset.mul_sum]
  ring

/-- Derivatives along moving points of the truncated energies converge to the derivative of the
exact energy. -/
theorem curve_conv (A B : PtArray) (c : V3 → ℝ → V3) (t0 : ℝ) (e : Pt → Pt → ℝ)
    (h : ∀ p ∈ A, ∀ s ∈ B, ∃ T : ℕ → ℝ, (∀ l, HasDerivAt (fun t => tm l (c p.pos t) s.pos) (T l) t0) ∧
      HasSum T (e p s)) :
    ∃ D : ℕ → ℝ, (∀ L, HasDerivAt (fun t => ptEnergy L (A.map fun p => ⟨p.mass, c p.pos t⟩) B) (D L) t0) ∧
      Filter.Tendsto D Filter.atTop
        (nhds (A.map fun p => (B.map fun s => -(BIG_G * p.mass * s.mass) * e p s).sum).sum) := by
  set T : Pt → Pt → ℕ → ℝ := fun p s l => deriv (fun t => tm l (c p.pos t) s.pos) t0 with hT
  have h1 : ∀ p ∈ A, ∀ s ∈ B, (∀ l, HasDerivAt (fun t => tm l (c p.pos t) s.pos) (T p s l) t0) ∧
      HasSum (T p s) (e p s) := by
    intro p hp s hs
    obtain ⟨T', hd, hsum⟩ := h p hp s hs
    have : T p s = T' := by funext l; exact (hd l).deriv
    rw [this]; exact ⟨hd, hsum⟩
  refine ⟨fun L => (A.map fun p => (B.map fun s => -(BIG_G * p.mass * s.mass) *
    ∑ l ∈ Finset.range (L + 1), T p s l).sum).sum, ?_, ?_⟩
  · intro L
    simp only [ptEnergy, List.map_map, Function.comp_def]
    apply hasDerivAt_list_sum
    intro p hp
    apply hasDerivAt_list_sum
    intro s hs
    apply HasDerivAt.const_mul
    apply HasDerivAt.fun_sum
    intro l _
    exact (h1 p hp s hs).1 l
  · apply tendsto_list_sum
    intro p hp
    apply tendsto_list_sum
    intro s hs
    apply Filter.Tendsto.const_mul
    exact ((h1 p hp s hs).2.tendsto_sum_nat).comp (Filter.tendsto_add_atTop_nat 1)

theorem BIG_G_pos : 0 < BIG_G := by rw [BIG_G]; norm_num

/-- Derivative of the inverse distance along a curve. -/
theorem inv_dist_deriv (c : ℝ → V3) (c' : V3) (t0 : ℝ) (hc : HasDerivAt c c' t0) (y : V3) (h : c t0 ≠ y) :
    HasDerivAt (fun t => 1 / dist3 (c t) y) ((1 / modulus (y - c t0) ^ 3) * ((y - c t0) ⬝ᵥ c')) t0 := by
  have hG := BIG_G_pos.ne'
  have h1 := pair_fderiv gravity_radial (-1 / BIG_G) (c t0) ⟨1, y⟩ h
  have h2 := h1.comp_hasDerivAt t0 hc
  have e : ((fun x : V3 => -(BIG_G * (⟨-1 / BIG_G, x⟩ : Pt).mass * (⟨1, y⟩ : Pt).mass) /
      dist3 (⟨-1 / BIG_G, x⟩ : Pt).pos (⟨1, y⟩ : Pt).pos) ∘ c) = fun t => 1 / dist3 (c t) y := by
    funext t
    simp only [Function.comp]
    congr 1
    field_simp
  rw [e] at h2
  refine h2.congr_deriv ?_
  rw [dotL_apply, neg_dotProduct, smul_dotProduct, gW, smul_eq_mul]
  have hm : modulus (y - c t0) ≠ 0 := fun h0 => h (sub_eq_zero.1 ((modulus_eq_zero _).1 h0)).symm
  field_simp

theorem modulus_add_le (x y : V3) : modulus (x + y) ≤ modulus x + modulus y := by
  apply Real.sqrt_le_iff.2
  have hx := modulus_nonneg x
  have hy := modulus_nonneg y
  refine ⟨by positivity, ?_⟩
  have h1 := modulus_sq x
  have h2 := modulus_sq y
  have h3 := (abs_le.1 (abs_dot_le x y)).2
  have : (x + y) 0 ^ 2 + (x + y) 1 ^ 2 + (x + y) 2 ^ 2 = nsq x + nsq y + 2 * (x ⬝ᵥ y) := by
    simp [nsq, dotProduct, Fin.sum_univ_three]; ring
  rw [this]
  nlinarith

theorem modulus_smul (c : ℝ) (v : V3) : modulus (c • v) = |c| * modulus v := by
  rw [modulus_eq_sqrt, modulus_eq_sqrt, ← Real.sqrt_sq_eq_abs, ← Real.sqrt_mul (sq_nonneg c)]
  congr 1
  simp [nsq]; ring

theorem offOrigin_of_far {B : PtArray} {a b : ℝ} (ha : 0 ≤ a) (hab : a < b) (hB : ∀ p ∈ B, b ≤ modulus p.pos) :
    OffOrigin B := by
  intro p hp h
  have := hB p hp
  rw [h, (modulus_eq_zero 0).2 rfl] at this
  linarith

/-- C54: let the array `A`, displaced by `d`, lie within radius `a` of the origin and let `B` lie outside
radius `b > a`.  Then `multipole_force` of the moments of `A` and `B`, evaluated at the displacement `d`,
converges as the degree grows to the force on the displaced array that `point_matrix_gravity` returns. -/
theorem C54_force_converges (A B : PtArray) (d : V3) (a b : ℝ) (ha : 0 ≤ a) (hab : a < b)
    (hA : ∀ p ∈ translate_point_array A d, modulus p.pos ≤ a) (hB : ∀ p ∈ B, b ≤ modulus p.pos)
    (q : ∀ L, Mom L) (hq : ∀ L, qmoments L A = some (q L))
    (F : ℕ → Fin 3 → ℂ)
    (hF : ∀ L, 1 ≤ L → multipole_force (q L) (Qmomentsb L B) (d 0) (d 1) (d 2) BIG_G = some (F L)) :
    ∃ f T, point_matrix_gravity (translate_point_array A d) B = some (f, T) ∧
      ∀ i, Filter.Tendsto (fun L => F L i) Filter.atTop (nhds (f i : ℂ)) := by
  have hBoff := offOrigin_of_far ha hab hB
  have hap : Apart (translate_point_array A d) B := by
    intro p hp s hs h
    have h1 := hA p hp
    have h2 := hB s hs
    rw [h] at h1; linarith
  have hqe : ∀ L, q L = Mom.ofFn L (innerMoment A) := by
    intro L
    by_cases hK : L = 0 ∨ OriginLast A
    · have := hq L; rw [qmoments_closed L A hK] at this; exact (Option.some.inj this).symm
    · have := hq L
      rw [qmoments_none L A (fun h => hK (Or.inl h)) (fun h => hK (Or.inr h))] at this
      exact absurd this (by simp)
  refine ⟨_, _, pmg_some hap, fun i => ?_⟩
  -- the exact pair derivatives
  have hcurve : ∀ p : V3, HasDerivAt (fun t => p + Function.update d i t) (Pi.single i 1) (d i) := by
    intro p
    have h1 : HasDerivAt (fun t : ℝ => Function.update d i t) (Pi.single i 1) (d i) := by
      rw [hasDerivAt_pi]
      intro j
      by_cases hj : j = i
      · subst hj
        simp only [Function.update_self, Pi.single_eq_same]
        exact hasDerivAt_id _
      · simp only [Function.update_of_ne hj, Pi.single_eq_of_ne hj]
        exact hasDerivAt_const _ _
    exact h1.const_add p
  have hline : ∀ (p : V3) (t : ℝ), p + Function.update d i t =
      (p + Function.update d i 0) + t • (Pi.single i 1 : V3) := by
    intro p t
    rw [add_assoc]
    congr 1
    funext j
    by_cases hj : j = i
    · subst hj; simp
    · simp [Function.update_of_ne hj, Pi.single_eq_of_ne hj]
  obtain ⟨D, hD, hlim⟩ := curve_conv A B (fun p t => p + Function.update d i t) (d i)
    (fun p s => (1 / modulus (s.pos - (p.pos + d)) ^ 3) * ((s.pos - (p.pos + d)) i)) (by
      intro p hp s hs
      have hpA : modulus (p.pos + d) ≤ a := hA ⟨p.mass, p.pos + d⟩ (List.mem_map.2 ⟨p, hp, rfl⟩)
      have hsB := hB s hs
      have hne : p.pos + d ≠ s.pos := fun h => by rw [h] at hpA; linarith
      have hupd : Function.update d i (d i) = d := Function.update_eq_self i d
      have hinv := inv_dist_deriv (fun t => p.pos + Function.update d i t) _ (d i) (hcurve p.pos) s.pos
        (by simpa [hupd] using hne)
      simp only [hupd] at hinv
      obtain ⟨dS, K, hK, hS, hSb⟩ := solidS_dir (p.pos + Function.update d i 0) (Pi.single i 1)
      have hcl : ∀ t, |t - d i| < (b - a) / 2 → modulus (p.pos + Function.update d i t) ≤ (a + b) / 2 := by
        intro t ht
        have e : p.pos + Function.update d i t = (p.pos + d) + (t - d i) • (Pi.single i 1 : V3) := by
          have := hline p.pos (d i)
          rw [hupd] at this
          rw [hline p.pos t, this, add_assoc (p.pos + Function.update d i 0), ← add_smul]
          congr 2; ring
        rw [e]
        have h1 := modulus_add_le (p.pos + d) ((t - d i) • (Pi.single i 1 : V3))
        rw [modulus_smul] at h1
        have h2 : modulus (Pi.single i 1 : V3) = 1 := by
          fin_cases i <;> simp [modulus]
        rw [h2] at h1
        linarith
      have hb0 : 0 < (a + b) / 2 := by linarith
      refine conv_deriv (fun t => p.pos + Function.update d i t) s.pos (d i) ((b - a) / 2)
        (K / ((a + b) / 2)) ((a + b) / 2) (by linarith) hb0.le (by linarith) dS ?_ ?_ hcl _ ?_
      · intro l m t _ _
        have := hS l m t
        simp only [← hline] at this
        exact this
      · intro l m t hm ht
        refine hSb l m t ((a + b) / 2) hm hb0 ?_
        rw [← hline]
        exact hcl t ht
      · refine hinv.congr_deriv ?_
        congr 1
        simp [dotProduct, Pi.single_apply])
  -- the multipole force is minus the derivative
  have hFD : ∀ L, 1 ≤ L → F L i = ((-D L : ℝ) : ℂ) := by
    intro L hL
    obtain ⟨F', f, E, h1, h2, h3, h4⟩ := C33_force_is_gradient (q L) (Qmomentsb L B)
      (by rw [hqe]; exact innerMoment_valid L A) (by rw [Qmomentsb_closed L B hBoff]; exact outerMoment_valid L B)
      d BIG_G (Or.inl hL)
    rw [hF L hL, Option.some.injEq] at h1
    rw [h1, h2]
    have hE : ∀ v, E v = ptEnergy L (A.map fun p => ⟨p.mass, p.pos + v⟩) B := by
      intro v
      have h5 := h3 v
      rw [hqe, Qmomentsb_closed L B hBoff] at h5
      have h6 : translate_qlm (Mom.ofFn L (innerMoment A)) v =
          Mom.ofFn L (innerMoment (translate_point_array A v)) := by
        rw [translate_qlm_closed _ (innerMoment_valid L A)]
        apply Mom.ext_get
        intro l m hl hm
        rw [Mom.get_ofFn _ hl hm, Mom.get_ofFn _ hl hm, trInner_innerMoment L A v l hl]
      rw [h6, ptEnergy_eq L _ B hBoff] at h5
      exact_mod_cast h5
    have h7 := h4 i
    simp only [hE] at h7
    have := h7.unique (hD L)
    rw [← this]; simp
  have hval : (totF gW (translate_point_array A d) B) i =
      -(A.map fun p => (B.map fun s => -(BIG_G * p.mass * s.mass) *
        ((1 / modulus (s.pos - (p.pos + d)) ^ 3) * ((s.pos - (p.pos + d)) i))).sum).sum := by
    rw [totF, translate_point_array, List.map_map, ← neg_list_sum, List.map_map]
    have happ : ∀ l : List V3, l.sum i = (l.map fun v => v i).sum := by
      intro l
      induction l with
      | nil => simp
      | cons a l ih => simp [ih]
    rw [happ, List.map_map]
    congr 1
    apply List.map_congr_left
    intro p _
    simp only [Function.comp, translate_point]
    rw [happ, List.map_map, ← neg_list_sum, List.map_map]
    congr 1
    apply List.map_congr_left
    intro s _
    simp only [Function.comp, gW, Pi.smul_apply, smul_eq_mul]
    ring
  rw [hval]
  have h8 : Filter.Tendsto (fun L => ((-D L : ℝ) : ℂ)) Filter.atTop (nhds _) :=
    (Complex.continuous_ofReal.tendsto _).comp hlim.neg
  refine h8.congr' ?_
  filter_upwards [Filter.eventually_ge_atTop 1] with L hL
  exact (hFD L hL).symm

theorem rz_deriv (p : V3) (t : ℝ) : ∃ c', HasDerivAt (fun t => rz t p) c' t := by
  refine ⟨![-Real.sin t * p 0 - Real.cos t * p 1, Real.cos t * p 0 + -Real.sin t * p 1, 0], ?_⟩
  rw [hasDerivAt_pi]
  intro j
  fin_cases j
  · exact ((Real.hasDerivAt_cos t).mul_const _).sub ((Real.hasDerivAt_sin t).mul_const _)
  · exact ((Real.hasDerivAt_sin t).mul_const _).add ((Real.hasDerivAt_cos t).mul_const _)
  · exact hasDerivAt_const _ _

theorem innerMoment_rz (L : ℕ) (A : PtArray) (psi : ℝ) :
    rotM psi 0 0 (Mom.ofFn L (innerMoment A)) = Mom.ofFn L (innerMoment (A.map fun p => ⟨p.mass, rz psi p.pos⟩)) := by
  have hv := rotM_valid _ (innerMoment_valid L A) psi 0 0
  apply Mom.ext_get
  intro l m hl hm
  rw [Mom.get_ofFn _ hl hm]
  by_cases hml : m.natAbs ≤ l
  · rw [rotM_z _ _ (innerMoment_valid L A).2 l m hl hm, Mom.get_ofFn _ hl hm, mul_comm, innerMoment, innerMoment, List.map_map,
      ← List.sum_map_mul_left]
    congr 1
    apply List.map_congr_left
    intro p _
    simp only [Function.comp]
    rw [solidS_rz]; ring_nf
  · rw [hv.2 l m hl hm (by omega), innerMoment_out _ _ _ (by omega)]

/-- C55: let `A` lie within radius `a` of the origin and `B` outside radius `b > a`.  Then the value of
`torques_at_angle` on the amplitudes that `torque_lm` computes from the moments of `A` and `B` converges,
as the degree grows, to the z torque that `point_matrix_gravity` returns for `A` turned about the z axis
by that angle. -/
theorem C55_torque_converges (A B : PtArray) (phi a b : ℝ) (ha : 0 ≤ a) (hab : a < b)
    (hA : ∀ p ∈ A, modulus p.pos ≤ a) (hB : ∀ p ∈ B, b ≤ modulus p.pos)
    (q : ∀ L, Mom L) (hq : ∀ L, qmoments L A = some (q L)) (t : ℕ → ℝ)
    (ht : ∀ L, torques_at_angle (torque_lm (q L) (Qmomentsb L B) BIG_G).nc
      (torque_lm (q L) (Qmomentsb L B) BIG_G).ns phi false = some (t L)) :
    ∃ A' F T, rotate_point_array A phi ![0, 0, 1] = some A' ∧ point_matrix_gravity A' B = some (F, T) ∧
      Filter.Tendsto t Filter.atTop (nhds (T 2)) := by
  have hBoff := offOrigin_of_far ha hab hB
  have hqe : ∀ L, q L = Mom.ofFn L (innerMoment A) := by
    intro L
    by_cases hK : L = 0 ∨ OriginLast A
    · have := hq L; rw [qmoments_closed L A hK] at this; exact (Option.some.inj this).symm
    · have := hq L
      rw [qmoments_none L A (fun h => hK (Or.inl h)) (fun h => hK (Or.inr h))] at this
      exact absurd this (by simp)
  have hrot : ∀ s, rotate_point_array A s ![0, 0, 1] = some (A.map fun p => ⟨p.mass, rz s p.pos⟩) := by
    intro s
    rw [rotate_some ez_ne]
    simp [rotF_z]
  have hap : Apart (A.map fun p => (⟨p.mass, rz phi p.pos⟩ : Pt)) B := by
    intro p hp s hs h
    obtain ⟨p', hp', rfl⟩ := List.mem_map.1 hp
    have h1 := hA p' hp'
    have h2 := hB s hs
    rw [← h, rz_modulus] at h2; linarith
  obtain ⟨F, T, hFT, hder⟩ := C45_gravity_torque_derivative A B ![0, 0, 1] ez_ne phi _ (hrot phi) hap
  refine ⟨_, F, T, hrot phi, hFT, ?_⟩
  have hez : ((![0, 0, 1] : V3) ⬝ᵥ T) / Real.sqrt ((![0, 0, 1] : V3) ⬝ᵥ ![0, 0, 1]) = T 2 := by
    simp [dotProduct, Fin.sum_univ_three]
  rw [hez] at hder
  simp only [hrot, Option.getD_some] at hder
  -- pairwise derivatives
  set e : Pt → Pt → ℝ := fun p s => deriv (fun t => 1 / dist3 (rz t p.pos) s.pos) phi with he
  have hpair : ∀ p ∈ A, ∀ s ∈ B, HasDerivAt (fun t => 1 / dist3 (rz t p.pos) s.pos) (e p s) phi := by
    intro p hp s hs
    obtain ⟨c', hc'⟩ := rz_deriv p.pos phi
    have := inv_dist_deriv (fun t => rz t p.pos) c' phi hc' s.pos
      (hap ⟨p.mass, rz phi p.pos⟩ (List.mem_map.2 ⟨p, hp, rfl⟩) s hs)
    exact this.differentiableAt.hasDerivAt
  obtain ⟨D, hD, hlim⟩ := curve_conv A B (fun p t => rz t p) phi e (by
    intro p hp s hs
    have hpA := hA p hp
    have hsB := hB s hs
    refine conv_deriv (fun t => rz t p.pos) s.pos phi 1 1 a one_pos ha (by linarith)
      (fun l m t => -Complex.I * m * Complex.exp (-Complex.I * m * t) * solidS l m p.pos) ?_ ?_ ?_ _ (hpair p hp s hs)
    · intro l m t _ _
      simp only [solidS_rz]
      have h1 : HasDerivAt (fun t : ℝ => Complex.exp (-Complex.I * m * t))
          (Complex.exp (-Complex.I * m * t) * (-Complex.I * m * 1)) t :=
        ((ofReal_deriv t).const_mul (-Complex.I * m)).cexp
      refine (h1.mul_const _).congr_deriv ?_
      ring
    · intro l m t hm _
      have h1 : ‖Complex.exp (-Complex.I * m * t)‖ = 1 := by
        rw [show -Complex.I * (m : ℂ) * t = ((-(m * t) : ℝ) : ℂ) * Complex.I by push_cast; ring]
        exact Complex.norm_exp_ofReal_mul_I _
      rw [norm_mul, norm_mul, norm_mul, norm_neg, Complex.norm_I, h1, one_mul, mul_one, Complex.norm_intCast]
      have h2 : |(m : ℝ)| ≤ l := by
        rw [← Int.cast_abs, ← Int.natCast_natAbs]; exact_mod_cast hm
      calc |(m : ℝ)| * ‖solidS l m p.pos‖ ≤ l * ((2 * l + 1) * modulus p.pos ^ l) := by
            gcongr; exact norm_solidS_le l m p.pos
        _ ≤ l * ((2 * l + 1) * a ^ l) := by
            have := modulus_nonneg p.pos
            gcongr
        _ = _ := by ring
    · intro t _
      rw [rz_modulus]; exact hpA)
  -- the limit is the exact derivative
  have hexact : HasDerivAt (fun s => newtonEnergy (A.map fun p => ⟨p.mass, rz s p.pos⟩) B)
      ((A.map fun p => (B.map fun s => -(BIG_G * p.mass * s.mass) * e p s).sum).sum) phi := by
    simp only [newtonEnergy, List.map_map, Function.comp_def]
    apply hasDerivAt_list_sum
    intro p hp
    apply hasDerivAt_list_sum
    intro s hs
    have := (hpair p hp s hs).const_mul (-(BIG_G * p.mass * s.mass))
    refine this.congr_of_eventuallyEq (Filter.Eventually.of_forall fun x => ?_)
    simp only []
    rw [mul_one_div]
  rw [hexact.unique hder] at hlim
  have htD : ∀ L, t L = -D L := by
    intro L
    obtain ⟨t', E, h1, h2, h3⟩ := C31_torque_is_energy_derivative (q L) (Qmomentsb L B)
      (by rw [hqe]; exact innerMoment_valid L A) (by rw [Qmomentsb_closed L B hBoff]; exact outerMoment_valid L B)
      BIG_G phi
    rw [ht L, Option.some.injEq] at h1
    have hE : ∀ psi, E psi = ptEnergy L (A.map fun p => ⟨p.mass, rz psi p.pos⟩) B := by
      intro psi
      obtain ⟨q', h4, h5⟩ := h2 psi
      rw [rotate_qlm_rotM, Option.some.injEq, hqe, innerMoment_rz] at h4
      rw [← h4, Qmomentsb_closed L B hBoff, ptEnergy_eq L _ B hBoff] at h5
      exact_mod_cast h5
    have hE' : E = fun psi => ptEnergy L (A.map fun p => ⟨p.mass, rz psi p.pos⟩) B := funext hE
    rw [hE'] at h3
    have := h3.unique (hD L)
    rw [h1, ← this, neg_neg]
  have h9 := hlim.neg
  rw [neg_neg] at h9
  exact h9.congr fun L => (htD L).symm

/-- non-vacuity of C54 and C55: a two-point body displaced by (0,0,1) stays within radius 3, and a point at
distance 5 -/
example : ∃ (A B : PtArray) (d : V3) (a b : ℝ), 0 ≤ a ∧ a < b ∧
    (∀ p ∈ translate_point_array A d, modulus p.pos ≤ a) ∧ (∀ p ∈ A, modulus p.pos ≤ a) ∧
    (∀ p ∈ B, b ≤ modulus p.pos) ∧ (∀ L, ∃ q, qmoments L A = some q) ∧ A.length = 2 ∧ B.length = 1 := by
  refine ⟨[⟨1, ![1, 0, 0]⟩, ⟨2, ![0, 2, 0]⟩], [⟨3, ![0, 0, 5]⟩], ![0, 0, 1], 3, 5, by norm_num, by norm_num, ?_, ?_, ?_,
    ?_, rfl, rfl⟩
  · intro p hp
    simp only [translate_point_array, translate_point, List.map_cons, List.map_nil, List.mem_cons,
      List.not_mem_nil, or_false] at hp
    rcases hp with rfl | rfl <;>
    · simp [modulus]
      rw [Real.sqrt_le_left (by norm_num)]
      norm_num
  · intro p hp
    simp only [List.mem_cons, List.not_mem_nil, or_false] at hp
    rcases hp with rfl | rfl <;>
    · simp [modulus]
      try norm_num
  · intro p hp
    simp only [List.mem_cons, List.not_mem_nil, or_false] at hp
    subst hp
    simp [modulus, Real.sqrt_sq]
  · intro L
    refine ⟨_, qmoments_closed L _ (Or.inr ⟨_, [], (List.append_nil _).symm, ?_, by simp⟩)⟩
    intro p hp
    simp only [List.mem_cons, List.not_mem_nil, or_false] at hp
    rcases hp with rfl | rfl
    · exact fun h => by simpa using congrFun h 0
    · exact fun h => by simpa using congrFun h 1

end Newt
