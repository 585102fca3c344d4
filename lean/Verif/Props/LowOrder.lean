import Verif.Spec.LowOrder
import Verif.Props.LowMoments
import Verif.Props.Convergence
import Verif.Props.Force
import Verif.Props.Torque

/-!
# C125: the lowest orders of the multipole force and torque, in vector form
-/

namespace Newt

open Spec

/-- The degrees up to `L` of the inverse distance. -/
noncomputable def lowU (L : ℕ) (x y : V3) : ℝ :=
  ∑ l ∈ Finset.range (L + 1), pz ((x ⬝ᵥ y) / modulus y) (modulus x ^ 2) l * (1 / modulus y) ^ l / modulus y

theorem energy_lowU (L : ℕ) (A B : PtArray) (hB : OffOrigin B) :
    multipoleEnergy BIG_G (Mom.ofFn L (innerMoment A)) (Qmomentsb L B) =
      ((A.map fun p => p.mass * -(B.map fun s => BIG_G * s.mass * lowU L p.pos s.pos).sum).sum : ℝ) := by
  rw [Qmomentsb_closed L B hB, multipoleEnergy, pairSum_points, ofReal_list_sum, List.map_map, ← List.sum_map_mul_left]
  congr 1
  apply List.map_congr_left
  intro p _
  rw [Function.comp, Complex.ofReal_mul p.mass, Complex.ofReal_neg, ofReal_list_sum, List.map_map, ← List.sum_map_mul_left, mul_neg, ← neg_mul,
    ← List.sum_map_mul_left]
  congr 1
  apply List.map_congr_left
  intro s hs
  rw [Finset.sum_congr rfl fun l _ => term_eq l p.pos s.pos (hB s hs), ← Complex.ofReal_sum, ← Finset.mul_sum, Function.comp, lowU]
  have hpi : (Real.pi : ℂ) ≠ 0 := by exact_mod_cast Real.pi_ne_zero
  push_cast
  field_simp

theorem lowU_one (x y : V3) (hy : y ≠ 0) : lowU 1 x y = 1 / modulus y + (x 0 * y 0 + x 1 * y 1 + x 2 * y 2) / modulus y ^ 3 := by
  have hr := modulus_pos hy
  have e : x ⬝ᵥ y = x 0 * y 0 + x 1 * y 1 + x 2 * y 2 := by simp [dotProduct, Fin.sum_univ_three]
  simp only [lowU, Finset.sum_range_succ, Finset.sum_range_zero, pz, e]
  field_simp
  try ring

theorem lowU_two (x y : V3) (hy : y ≠ 0) : lowU 2 x y = 1 / modulus y + (x 0 * y 0 + x 1 * y 1 + x 2 * y 2) / modulus y ^ 3 +
    (3 * (x 0 * y 0 + x 1 * y 1 + x 2 * y 2) ^ 2 / modulus y ^ 5 - (x 0 ^ 2 + x 1 ^ 2 + x 2 ^ 2) / modulus y ^ 3) / 2 := by
  have hr := modulus_pos hy
  have e : x ⬝ᵥ y = x 0 * y 0 + x 1 * y 1 + x 2 * y 2 := by simp [dotProduct, Fin.sum_univ_three]
  have e2 : modulus x ^ 2 = x 0 ^ 2 + x 1 ^ 2 + x 2 ^ 2 := by rw [modulus, Real.sq_sqrt (by positivity)]
  simp only [lowU, Finset.sum_range_succ, Finset.sum_range_zero, pz, e, e2]
  field_simp
  ring

theorem deriv_lowU_one {c : ℝ → V3} {c' : V3} {t : ℝ} (hc : ∀ i, HasDerivAt (fun s => c s i) (c' i) t) (y : V3) (hy : y ≠ 0) :
    HasDerivAt (fun s => lowU 1 (c s) y) (∑ i, y i / modulus y ^ 3 * c' i) t := by
  simp only [lowU_one _ y hy]
  have h1 := (((hc 0).mul_const (y 0)).add ((hc 1).mul_const (y 1))).add ((hc 2).mul_const (y 2))
  refine ((h1.div_const (modulus y ^ 3)).const_add (1 / modulus y)).congr_deriv ?_
  rw [Fin.sum_univ_three]; ring

theorem deriv_lowU_two {c : ℝ → V3} {c' : V3} {t : ℝ} (hc : ∀ i, HasDerivAt (fun s => c s i) (c' i) t) (y : V3) (hy : y ≠ 0) :
    HasDerivAt (fun s => lowU 2 (c s) y) (∑ i, (y i / modulus y ^ 3 +
      ∑ j, (3 * y i * y j / modulus y ^ 5 - (if i = j then 1 else 0) / modulus y ^ 3) * c t j) * c' i) t := by
  simp only [lowU_two _ y hy]
  have h1 := (((hc 0).mul_const (y 0)).add ((hc 1).mul_const (y 1))).add ((hc 2).mul_const (y 2))
  have h2 := (((hc 0).pow 2).add ((hc 1).pow 2)).add ((hc 2).pow 2)
  have h3 := ((((h1.pow 2).const_mul 3).div_const (modulus y ^ 5)).sub (h2.div_const (modulus y ^ 3))).div_const 2
  refine (((h1.div_const (modulus y ^ 3)).const_add (1 / modulus y)).add h3).congr_deriv ?_
  simp [Fin.sum_univ_three]
  ring

/-- The force of `B` on a unit mass at the origin. -/
theorem field_at_zero (B : PtArray) (hB : OffOrigin B) :
    gmmr2_array ⟨1, 0⟩ B = some fun i => (B.map fun s => BIG_G * s.mass * (s.pos i / modulus s.pos ^ 3)).sum := by
  rw [gmmr2_array_some fun b hb => (hB b hb).symm, Option.some.injEq]
  funext i
  induction B with
  | nil => simp
  | cons b B ih =>
    have := ih fun p hp => hB p (List.mem_cons_of_mem _ hp)
    rw [List.map_cons, List.sum_cons, List.map_cons, List.sum_cons, Pi.add_apply, this]
    congr 1
    simp [gW, dist3_eq_sqrt, sqd_eq, Real.sqrt_sq (modulus_nonneg _)]
    ring

theorem list_hasDeriv {α : Type} (l : List α) (f : α → ℝ → ℝ) (f' : α → ℝ) (t : ℝ) (h : ∀ a ∈ l, HasDerivAt (f a) (f' a) t) :
    HasDerivAt (fun s => (l.map fun a => f a s).sum) (l.map f').sum t := by
  induction l with
  | nil => simpa using hasDerivAt_const t (0 : ℝ)
  | cons a l ih =>
    simp only [List.map_cons, List.sum_cons]
    exact (h a (by simp)).add (ih fun b hb => h b (by simp [hb]))

theorem pot_one {c : ℝ → V3} {c' : V3} {t : ℝ} (hc : ∀ i, HasDerivAt (fun s => c s i) (c' i) t) (B : PtArray) (hB : OffOrigin B) (g : V3)
    (hg : gmmr2_array ⟨1, 0⟩ B = some g) :
    HasDerivAt (fun s => (B.map fun b => BIG_G * b.mass * lowU 1 (c s) b.pos).sum) (g ⬝ᵥ c') t := by
  rw [field_at_zero B hB, Option.some.injEq] at hg
  refine (list_hasDeriv B (fun b s => BIG_G * b.mass * lowU 1 (c s) b.pos) _ t
    fun b hb => (deriv_lowU_one hc b.pos (hB b hb)).const_mul (BIG_G * b.mass)).congr_deriv ?_
  rw [← hg, dotProduct, Fin.sum_univ_three]
  simp only [← List.sum_map_mul_right, ← List.sum_map_add]
  congr 1
  apply List.map_congr_left
  intro b _
  rw [Fin.sum_univ_three]; ring

theorem tidal_zero (B : PtArray) (i j : Fin 3) : tidal 1 B 0 i j =
    (B.map fun b => BIG_G * b.mass * (3 * b.pos i * b.pos j / modulus b.pos ^ 5 - (if i = j then 1 else 0) / modulus b.pos ^ 3)).sum := by
  rw [tidal]
  congr 1
  apply List.map_congr_left
  intro b _
  simp [dist3_eq_sqrt, sqd_eq, Real.sqrt_sq (modulus_nonneg _)]

theorem pot_two {c : ℝ → V3} {c' : V3} {t : ℝ} (hc : ∀ i, HasDerivAt (fun s => c s i) (c' i) t) (B : PtArray) (hB : OffOrigin B) (g : V3)
    (hg : gmmr2_array ⟨1, 0⟩ B = some g) :
    HasDerivAt (fun s => (B.map fun b => BIG_G * b.mass * lowU 2 (c s) b.pos).sum) (linearField g B (c t) ⬝ᵥ c') t := by
  rw [field_at_zero B hB, Option.some.injEq] at hg
  refine (list_hasDeriv B (fun b s => BIG_G * b.mass * lowU 2 (c s) b.pos) _ t
    fun b hb => (deriv_lowU_two hc b.pos (hB b hb)).const_mul (BIG_G * b.mass)).congr_deriv ?_
  rw [← hg, dotProduct]
  simp only [linearField, tidal_zero, Fin.sum_univ_three, ← List.sum_map_mul_right, ← List.sum_map_add]
  congr 1
  apply List.map_congr_left
  intro b _
  ring

theorem low_sub {α : Type} (l : List α) (f g : α → ℝ) : (l.map fun a => f a - g a).sum = (l.map f).sum - (l.map g).sum := by
  induction l with
  | nil => simp
  | cons a l ih => simp only [List.map_cons, List.sum_cons, ih]; ring

theorem low_translate (L : ℕ) (A : PtArray) (d : V3) :
    translate_qlm (Mom.ofFn L (innerMoment A)) d = Mom.ofFn L (innerMoment (translate_point_array A d)) := by
  rw [translate_qlm_closed _ (innerMoment_valid L A)]
  apply Mom.ext_get
  intro l m hl hm
  rw [Mom.get_ofFn _ hl hm, Mom.get_ofFn _ hl hm, trInner_innerMoment L A d l hl]

/-- The force from a field that is the gradient of the truncated potential. -/
theorem low_force (L : ℕ) (hL : 1 ≤ L) (field : V3 → V3) (A B : PtArray) (hA : ¬ OffAfterOrigin A) (hB : OffOrigin B)
    (h : ∀ (c : ℝ → V3) (c' : V3) (t : ℝ), (∀ i, HasDerivAt (fun s => c s i) (c' i) t) →
      HasDerivAt (fun s => (B.map fun b => BIG_G * b.mass * lowU L (c s) b.pos).sum) (field (c t) ⬝ᵥ c') t) (d : V3) :
    ∃ q F, qmoments L A = some q ∧ multipole_force q (Qmomentsb L B) (d 0) (d 1) (d 2) BIG_G = some F ∧
      ∀ i, F i = ((forceIn field (translate_point_array A d) i : ℝ) : ℂ) := by
  have hQ : Valid (Qmomentsb L B) := by rw [Qmomentsb_closed L B hB]; exact outerMoment_valid L B
  obtain ⟨F, f, E, h1, h2, h3, h4⟩ := C33_force_is_gradient (Mom.ofFn L (innerMoment A)) (Qmomentsb L B) (innerMoment_valid L A) hQ d BIG_G
    (Or.inl hL)
  refine ⟨_, F, qmoments_closed L A (Or.inr ((originLast_iff A).2 hA)), h1, fun i => ?_⟩
  rw [h2, Complex.ofReal_inj]
  have hE : ∀ v, E v = (A.map fun p => p.mass * -(B.map fun s => BIG_G * s.mass * lowU L (p.pos + v) s.pos).sum).sum := by
    intro v
    have := h3 v
    rw [low_translate, energy_lowU L _ B hB, Complex.ofReal_inj] at this
    rw [this, translate_point_array, List.map_map]
    rfl
  have hd : HasDerivAt (fun t => E (Function.update d i t)) (A.map fun p => p.mass * -(field (p.pos + d) i)).sum (d i) := by
    simp only [hE]
    refine list_hasDeriv A (fun p t => p.mass * -(B.map fun s => BIG_G * s.mass * lowU L (p.pos + Function.update d i t) s.pos).sum) _ _ fun p _ => ?_
    have := h (fun t => p.pos + Function.update d i t) (Pi.single i 1) (d i) fun j => by
      by_cases hj : j = i
      · subst hj
        simp only [Pi.add_apply, Function.update_self, Pi.single_eq_same]
        exact (hasDerivAt_id (d j)).const_add (p.pos j)
      · simp only [Pi.add_apply, Function.update_of_ne hj, Pi.single_eq_of_ne hj]
        exact hasDerivAt_const _ _
    rw [Function.update_eq_self, dotProduct_single, mul_one] at this
    exact this.neg.const_mul p.mass
  have e := (h4 i).unique hd
  have : f i = (A.map fun p => p.mass * field (p.pos + d) i).sum := by
    rw [← neg_inj, e, ← neg_one_mul, ← List.sum_map_mul_left]
    congr 1
    apply List.map_congr_left
    intro p _
    ring
  rw [this, forceIn, translate_point_array, List.map_map, list_sum_apply, List.map_map]
  rfl

theorem low_rotate (L : ℕ) (A : PtArray) (phi : ℝ) (q : Mom L) (h : rotate_qlm (Mom.ofFn L (innerMoment A)) phi 0 0 = some q) :
    q = Mom.ofFn L (innerMoment (A.map fun p => ⟨p.mass, rz phi p.pos⟩)) := by
  rw [rotate_qlm_closed, Option.some.injEq] at h
  rw [← h]
  apply Mom.ext_get
  intro l m hl hm
  rw [Mom.get_ofFn _ hl hm]
  have e : ∀ v, rz phi (ry 0 (rz 0 v)) = rz phi v := by
    intro v
    congr 1
    funext i
    fin_cases i <;> simp [rz, ry]
  by_cases hml : m.natAbs ≤ l
  · rw [if_pos hml, Mom.get_ofFn _ hl hm, innerMoment_map (rz phi) l m (bigD l phi 0 0 m) fun v => by
      rw [← e v]; exact solidS_rot l m hml phi 0 0 v]
    apply Finset.sum_congr rfl
    intro n hn
    rw [Finset.mem_Icc] at hn
    rw [Mom.get_ofFn _ hl (by omega)]
  · rw [if_neg hml, Mom.get_ofFn _ hl hm, Mom.get_ofFn _ hl hm, innerMoment_out _ _ _ (by omega), innerMoment_out _ _ _ (by omega)]

/-- The torque about z from a field that is the gradient of the truncated potential. -/
theorem low_torque (L : ℕ) (field : V3 → V3) (A B : PtArray) (hA : ¬ OffAfterOrigin A) (hB : OffOrigin B)
    (h : ∀ (c : ℝ → V3) (c' : V3) (t : ℝ), (∀ i, HasDerivAt (fun s => c s i) (c' i) t) →
      HasDerivAt (fun s => (B.map fun b => BIG_G * b.mass * lowU L (c s) b.pos).sum) (field (c t) ⬝ᵥ c') t) (phi : ℝ) :
    ∃ q A', qmoments L A = some q ∧ rotate_point_array A phi ![0, 0, 1] = some A' ∧
      torques_at_angle (torque_lm q (Qmomentsb L B) BIG_G).nc (torque_lm q (Qmomentsb L B) BIG_G).ns phi false =
        some (torqueIn field A' 2) := by
  have hQ : Valid (Qmomentsb L B) := by rw [Qmomentsb_closed L B hB]; exact outerMoment_valid L B
  obtain ⟨t, E, h1, h2, h3⟩ := C31_torque_is_energy_derivative (Mom.ofFn L (innerMoment A)) (Qmomentsb L B) (innerMoment_valid L A) hQ BIG_G phi
  refine ⟨_, _, qmoments_closed L A (Or.inr ((originLast_iff A).2 hA)), rotate_some ez_ne _ _, ?_⟩
  rw [h1, Option.some.injEq]
  have hE : ∀ v, E v = (A.map fun p => p.mass * -(B.map fun s => BIG_G * s.mass * lowU L (rz v p.pos) s.pos).sum).sum := by
    intro v
    obtain ⟨q', hq', e⟩ := h2 v
    rw [low_rotate L A v q' hq', energy_lowU L _ B hB, Complex.ofReal_inj] at e
    rw [e, List.map_map]
    rfl
  have hd : HasDerivAt E (A.map fun p => p.mass * -(field (rz phi p.pos) ⬝ᵥ ![-(rz phi p.pos) 1, (rz phi p.pos) 0, 0])).sum phi := by
    rw [show E = _ from funext hE]
    refine list_hasDeriv A (fun p v => p.mass * -(B.map fun s => BIG_G * s.mass * lowU L (rz v p.pos) s.pos).sum) _ _ fun p _ => ?_
    have := h (fun v => rz v p.pos) ![-(rz phi p.pos) 1, (rz phi p.pos) 0, 0] phi fun j => by
      have hc := Real.hasDerivAt_cos phi
      have hs := Real.hasDerivAt_sin phi
      fin_cases j
      · simp [rz]
        refine ((hc.mul_const (p.pos 0)).sub (hs.mul_const (p.pos 1))).congr_deriv ?_
        ring
      · simp [rz]
        refine ((hs.mul_const (p.pos 0)).add (hc.mul_const (p.pos 1))).congr_deriv ?_
        ring
      · simp [rz]
        exact hasDerivAt_const _ _
    exact this.neg.const_mul p.mass
  have e := h3.unique hd
  rw [torqueIn, List.map_map, list_sum_apply, List.map_map, ← neg_inj, e, ← neg_one_mul, ← List.sum_map_mul_left]
  congr 1
  apply List.map_congr_left
  intro p _
  simp only [Function.comp, rotF_z, Pi.smul_apply, smul_eq_mul, crossProduct]
  simp [dotProduct, Fin.sum_univ_three]
  ring

/-! ## the theorems -/

/-- C125 (force, degree one): with moments to degree 1 `multipole_force` is the mass times the field at the origin, wherever the body is. -/
theorem C125_force_one (A B : PtArray) (hA : ¬ OffAfterOrigin A) (hB : OffOrigin B) (d : V3) :
    ∃ q F g, qmoments 1 A = some q ∧ multipole_force q (Qmomentsb 1 B) (d 0) (d 1) (d 2) BIG_G = some F ∧
      gmmr2_array ⟨1, 0⟩ B = some g ∧ ∀ i, F i = (((A.map Pt.mass).sum * g i : ℝ) : ℂ) := by
  have hg := field_at_zero B hB
  obtain ⟨q, F, h1, h2, h3⟩ := low_force 1 le_rfl (fun _ => _) A B hA hB (fun c c' t hc => pot_one hc B hB _ hg) d
  refine ⟨q, F, _, h1, h2, hg, fun i => ?_⟩
  rw [h3, forceIn, translate_point_array, List.map_map, list_sum_apply, List.map_map, ← List.sum_map_mul_right]
  rfl

/-- C125 (force, degree two): with moments to degree 2 `multipole_force` at `d` is the force on the displaced array of the field that has the value
and the gradient of the field of the other array at the origin. -/
theorem C125_force_two (A B : PtArray) (hA : ¬ OffAfterOrigin A) (hB : OffOrigin B) (d : V3) :
    ∃ q F g, qmoments 2 A = some q ∧ multipole_force q (Qmomentsb 2 B) (d 0) (d 1) (d 2) BIG_G = some F ∧
      gmmr2_array ⟨1, 0⟩ B = some g ∧ ∀ i, F i = ((forceIn (linearField g B) (translate_point_array A d) i : ℝ) : ℂ) := by
  have hg := field_at_zero B hB
  obtain ⟨q, F, h1, h2, h3⟩ := low_force 2 (by norm_num) _ A B hA hB (fun c c' t hc => pot_two hc B hB _ hg) d
  exact ⟨q, F, _, h1, h2, hg, h3⟩

/-- C125 (torque, degree one): with moments to degree 1 the torque at an angle is that of the uniform field on the turned array. -/
theorem C125_torque_one (A B : PtArray) (hA : ¬ OffAfterOrigin A) (hB : OffOrigin B) (phi : ℝ) :
    ∃ q A' g, qmoments 1 A = some q ∧ rotate_point_array A phi ![0, 0, 1] = some A' ∧ gmmr2_array ⟨1, 0⟩ B = some g ∧
      torques_at_angle (torque_lm q (Qmomentsb 1 B) BIG_G).nc (torque_lm q (Qmomentsb 1 B) BIG_G).ns phi false =
        some (torqueIn (fun _ => g) A' 2) := by
  have hg := field_at_zero B hB
  obtain ⟨q, A', h1, h2, h3⟩ := low_torque 1 (fun _ => _) A B hA hB (fun c c' t hc => pot_one hc B hB _ hg) phi
  exact ⟨q, A', _, h1, h2, hg, h3⟩

/-- C125 (torque, degree two): with moments to degree 2 it is that of the field with the value and gradient at the origin. -/
theorem C125_torque_two (A B : PtArray) (hA : ¬ OffAfterOrigin A) (hB : OffOrigin B) (phi : ℝ) :
    ∃ q A' g, qmoments 2 A = some q ∧ rotate_point_array A phi ![0, 0, 1] = some A' ∧ gmmr2_array ⟨1, 0⟩ B = some g ∧
      torques_at_angle (torque_lm q (Qmomentsb 2 B) BIG_G).nc (torque_lm q (Qmomentsb 2 B) BIG_G).ns phi false =
        some (torqueIn (linearField g B) A' 2) := by
  have hg := field_at_zero B hB
  obtain ⟨q, A', h1, h2, h3⟩ := low_torque 2 _ A B hA hB (fun c c' t hc => pot_two hc B hB _ hg) phi
  exact ⟨q, A', _, h1, h2, hg, h3⟩

/-- C125 (balanced body): if the centre of mass is at the origin, degree 1 gives no torque at any angle, degree 2 gives at zero displacement the mass
times the field at the origin, and a torque in which only the gravity gradient enters. -/
theorem C125_balanced (A B : PtArray) (hA : ¬ OffAfterOrigin A) (hB : OffOrigin B) (hcm : ∀ i, (A.map fun p => p.mass * p.pos i).sum = 0) (phi : ℝ) :
    ∃ q1 q2 F A' g, qmoments 1 A = some q1 ∧ qmoments 2 A = some q2 ∧ rotate_point_array A phi ![0, 0, 1] = some A' ∧ gmmr2_array ⟨1, 0⟩ B = some g ∧
      torques_at_angle (torque_lm q1 (Qmomentsb 1 B) BIG_G).nc (torque_lm q1 (Qmomentsb 1 B) BIG_G).ns phi false = some 0 ∧
      multipole_force q2 (Qmomentsb 2 B) 0 0 0 BIG_G = some F ∧ (∀ i, F i = (((A.map Pt.mass).sum * g i : ℝ) : ℂ)) ∧
      torques_at_angle (torque_lm q2 (Qmomentsb 2 B) BIG_G).nc (torque_lm q2 (Qmomentsb 2 B) BIG_G).ns phi false =
        some (torqueIn (linearField 0 B) A' 2) := by
  obtain ⟨q1, A', g, h1, h2, h3, h4⟩ := C125_torque_one A B hA hB phi
  obtain ⟨q2, F, g', h5, h6, h7, h8⟩ := C125_force_two A B hA hB 0
  obtain ⟨q2', A'', g'', h9, h10, h11, h12⟩ := C125_torque_two A B hA hB phi
  rw [h3, Option.some.injEq] at h7 h11
  rw [h5, Option.some.injEq] at h9
  rw [h2, Option.some.injEq] at h10
  subst h7 h11 h9 h10
  rw [rotate_some ez_ne, Option.some.injEq] at h2
  have key : ∀ a b : ℝ, (A.map fun p => p.mass * ((rz phi p.pos) 0 * a - (rz phi p.pos) 1 * b)).sum = 0 := by
    intro a b
    have : (A.map fun p => p.mass * ((rz phi p.pos) 0 * a - (rz phi p.pos) 1 * b)).sum =
        (Real.cos phi * a - Real.sin phi * b) * (A.map fun p => p.mass * p.pos 0).sum -
        (Real.sin phi * a + Real.cos phi * b) * (A.map fun p => p.mass * p.pos 1).sum := by
      rw [← List.sum_map_mul_left, ← List.sum_map_mul_left, ← low_sub]
      congr 1
      apply List.map_congr_left
      intro p _
      simp [rz]; ring
    rw [this, hcm, hcm]; ring
  refine ⟨q1, q2, F, A', g, h1, h5, (by rw [rotate_some ez_ne, h2]), h3, ?_, h6, fun i => ?_, ?_⟩
  · rw [h4, Option.some.injEq, torqueIn, ← h2, List.map_map, list_sum_apply, List.map_map]
    refine Eq.trans ?_ (key (g 1) (g 0))
    congr 1
    apply List.map_congr_left
    intro p _
    simp [rotF_z, crossProduct]
  · rw [h8, Complex.ofReal_inj, forceIn, translate_point_array, List.map_map, list_sum_apply, List.map_map]
    have : (A.map fun p => p.mass * (g i + ∑ j, tidal 1 B 0 i j * p.pos j)).sum =
        (A.map Pt.mass).sum * g i + ∑ j, tidal 1 B 0 i j * (A.map fun p => p.mass * p.pos j).sum := by
      rw [Fin.sum_univ_three, ← List.sum_map_mul_left, ← List.sum_map_mul_left, ← List.sum_map_mul_left, ← List.sum_map_mul_right,
        ← List.sum_map_add, ← List.sum_map_add, ← List.sum_map_add]
      congr 1
      apply List.map_congr_left
      intro p _
      rw [Fin.sum_univ_three]; ring
    simp only [hcm, mul_zero, Finset.sum_const_zero, add_zero] at this
    rw [← this]
    congr 1
    apply List.map_congr_left
    intro p _
    simp [translate_point, linearField]
  · rw [h12, Option.some.injEq, torqueIn, torqueIn, ← h2, List.map_map, list_sum_apply, List.map_map, List.map_map, list_sum_apply, List.map_map]
    have e := key (g 1) (g 0)
    rw [← sub_eq_zero, ← low_sub]
    refine Eq.trans ?_ e
    congr 1
    apply List.map_congr_left
    intro p _
    simp [rotF_z, crossProduct, linearField]
    ring

/-- Two unequal masses balanced about the origin, and one source: the hypotheses hold, and the gradient acts. -/
example : (¬ OffAfterOrigin [⟨2, ![1, 0, 0]⟩, ⟨1, ![-2, 0, 0]⟩]) ∧ OffOrigin [⟨1, ![3, 4, 0]⟩] ∧
    (∀ i, (([⟨2, ![1, 0, 0]⟩, ⟨1, ![-2, 0, 0]⟩] : PtArray).map fun p => p.mass * p.pos i).sum = 0) ∧
    torqueIn (linearField 0 [⟨1, ![3, 4, 0]⟩]) [⟨2, ![1, 0, 0]⟩, ⟨1, ![-2, 0, 0]⟩] 2 ≠ 0 := by
  refine ⟨?_, ?_, ?_, ?_⟩
  · rintro ⟨i, j, p, q, -, hi, -, hp, -⟩
    have := List.mem_of_getElem? hi
    simp only [List.mem_cons, List.not_mem_nil, or_false] at this
    rcases this with rfl | rfl <;> simpa using congrFun hp 0
  · intro p hp h
    rw [List.mem_singleton] at hp
    subst hp
    simpa using congrFun h 0
  · intro i
    fin_cases i <;> simp
  · have hm : modulus ![3, 4, 0] = 5 := by
      rw [modulus]
      simp only [Matrix.cons_val]
      rw [show (3 : ℝ) ^ 2 + 4 ^ 2 + 0 ^ 2 = 5 ^ 2 by norm_num, Real.sqrt_sq (by norm_num)]
    have hG : BIG_G ≠ 0 := by norm_num [BIG_G]
    simp [torqueIn, linearField, tidal_zero, crossProduct, Fin.sum_univ_three, hm]
    ring_nf
    simpa using hG

end Newt
