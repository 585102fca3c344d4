import Verif.Proofs.MeanValue
import Verif.Props.BodyForce
import Verif.Props.Torque

/-!
# The derivative of the error of the two-centre energy

The energy of a body in the field of a set of outer moments is the integral of a harmonic polynomial over the body; if two
sets of outer moments give nearly the same polynomial in a ball, they give nearly the same forces and torques.
-/

namespace Newt

open Spec MeasureTheory

/-- The energy of a unit point mass at `x`. -/
noncomputable def potE {L : ℕ} (Q : Mom L) (x : V3) : ℂ :=
  multipoleEnergy BIG_G (Mom.ofFn L fun l m => solidS l m x) Q

theorem potE_eq {L : ℕ} (Q : Mom L) (x : V3) : potE Q x = ((-4 * Real.pi * BIG_G : ℝ) : ℂ) *
    ∑ l ∈ Finset.range (L + 1), ∑ m ∈ Finset.Icc (-(l : ℤ)) l, (Q.get l m / (2 * l + 1)) * solidS l m x := by
  rw [potE, multipoleEnergy, pairSum]
  congr 1
  refine Finset.sum_congr rfl fun l hl => Finset.sum_congr rfl fun m hm => ?_
  rw [Finset.mem_range] at hl
  rw [Finset.mem_Icc] at hm
  rw [Mom.get_ofFn _ (by omega) (by omega)]
  ring

theorem potE_cont {L : ℕ} (Q : Mom L) : Continuous (potE Q) := by
  have : potE Q = fun x => _ := funext (potE_eq Q)
  rw [this]
  refine continuous_const.mul (continuous_finset_sum _ fun l _ => continuous_finset_sum _ fun m _ => ?_)
  exact continuous_const.mul (continuous_solidS l m)

theorem point_inner (x : V3) (l : ℕ) (m : ℤ) : (Body.points [⟨1, x⟩]).inner l m = solidS l m x := by
  simp [Body.inner, Body.points, Piece.point, integral_dirac]

theorem point_inner_translate (x : V3) (l : ℕ) (m : ℤ) : ((Body.points [⟨1, 0⟩]).translate x).inner l m = solidS l m x := by
  simp only [Body.inner, Body.points, Body.translate, List.map_cons, List.map_nil, List.sum_cons, List.sum_nil, add_zero]
  rw [Piece.integral_move _ _ _ _ (continuous_solidS l m)]
  simp [Piece.point, Piece.move, integral_dirac]

theorem potE_point {L : ℕ} (Q : Mom L) (x : V3) :
    multipoleEnergy BIG_G (Mom.ofFn L (Body.points [⟨1, x⟩]).inner) Q = potE Q x := by
  rw [potE]
  congr 2
  funext l m
  exact point_inner x l m

theorem potE_mean {L : ℕ} (Q : Mom L) : MeanVal (potE Q) := by
  have : potE Q = fun x => ((-4 * Real.pi * BIG_G : ℝ) : ℂ) * ∑ l ∈ Finset.range (L + 1), ∑ m ∈ Finset.Icc (-(l : ℤ)) l,
      (Q.get l m / (2 * l + 1)) * ((Body.points [⟨1, 0⟩]).translate x).inner l m := by
    funext x
    simp only [point_inner_translate]
    exact potE_eq Q x
  rw [this]
  refine MeanVal.const_mul (MeanVal.sum _ fun l _ => MeanVal.sum _ fun m hm => MeanVal.const_mul ?_ _) _
  rw [Finset.mem_Icc] at hm
  exact MeanVal.inner _ l m (by omega)

/-- The energy of a body is the integral of the point energy. -/
theorem potE_body {L : ℕ} (Q : Mom L) (b : Body) : multipoleEnergy BIG_G (Mom.ofFn L b.inner) Q =
    (b.map fun p => (p.rho : ℂ) * ∫ x, potE Q x ∂p.mu).sum := by
  have h1 : ∀ p : Piece, ∫ x, potE Q x ∂p.mu = ((-4 * Real.pi * BIG_G : ℝ) : ℂ) *
      ∑ l ∈ Finset.range (L + 1), ∑ m ∈ Finset.Icc (-(l : ℤ)) l, (Q.get l m / (2 * l + 1)) * ∫ x, solidS l m x ∂p.mu := by
    intro p
    simp only [potE_eq]
    have hi : ∀ l m, Integrable (fun x => (Q.get l m / (2 * l + 1)) * solidS l m x) p.mu := fun l m =>
      (p.integrable (continuous_solidS l m)).const_mul _
    rw [integral_const_mul, integral_finset_sum _ fun l _ => integrable_finset_sum _ fun m _ => hi l m]
    congr 1
    refine Finset.sum_congr rfl fun l _ => ?_
    rw [integral_finset_sum _ fun m _ => hi l m]
    exact Finset.sum_congr rfl fun m _ => integral_const_mul _ _
  simp only [h1]
  rw [multipoleEnergy, pairSum]
  have h2 : ∀ p : Piece, (p.rho : ℂ) * (((-4 * Real.pi * BIG_G : ℝ) : ℂ) *
      ∑ l ∈ Finset.range (L + 1), ∑ m ∈ Finset.Icc (-(l : ℤ)) l, (Q.get l m / (2 * l + 1)) * ∫ x, solidS l m x ∂p.mu) =
      ∑ l ∈ Finset.range (L + 1), ∑ m ∈ Finset.Icc (-(l : ℤ)) l, (((-4 * Real.pi * BIG_G : ℝ) : ℂ) * (Q.get l m / (2 * l + 1))) *
        ((p.rho : ℂ) * ∫ x, solidS l m x ∂p.mu) := by
    intro p
    simp only [Finset.mul_sum]
    refine Finset.sum_congr rfl fun l _ => Finset.sum_congr rfl fun m _ => ?_
    ring
  simp only [h2, Body.list_sum_finset]
  simp only [Finset.mul_sum]
  refine Finset.sum_congr rfl fun l hl => Finset.sum_congr rfl fun m hm => ?_
  rw [Finset.mem_range] at hl
  rw [Finset.mem_Icc] at hm
  rw [Mom.get_ofFn _ (by omega) (by omega), Body.inner, List.sum_map_mul_left]
  ring

theorem absMass_move (b : Body) (f : V3 → V3) (hf : Continuous f) : Body.absMass (b.map fun p => p.move f hf) = b.absMass := by
  simp only [Body.absMass, List.map_map, Function.comp_def, Piece.move_univ]
  rfl

theorem absMass_translate (b : Body) (d : V3) : (b.translate d).absMass = b.absMass := absMass_move b _ _

/-- If two sets of outer moments give nearly the same energies to points, the derivatives of the energies of a moving body are
nearly the same. -/
theorem moved_deriv_le {L : ℕ} (Q Q' : Mom L) (b : Body) (c : V3 → ℝ → V3) (hc : ∀ t, Continuous fun x => c x t)
    (t0 a V r eps : ℝ) (hr : 0 < r) (hV : 0 ≤ V)
    (hin : ∀ p ∈ b, ∀ᵐ x ∂p.mu, modulus (c x t0) ≤ a)
    (hlip : ∀ p ∈ b, ∀ᵐ x ∂p.mu, ∀ t, modulus (c x t - c x t0) ≤ V * |t - t0|)
    (heps0 : 0 ≤ eps) (heps : ∀ x, modulus x ≤ a + 3 * r → ‖potE Q x - potE Q' x‖ ≤ eps) (D : ℂ)
    (hD : HasDerivAt (fun t => multipoleEnergy BIG_G (Mom.ofFn L (Body.inner (b.map fun p => p.move (fun x => c x t) (hc t)))) Q -
      multipoleEnergy BIG_G (Mom.ofFn L (Body.inner (b.map fun p => p.move (fun x => c x t) (hc t)))) Q') D t0) :
    ‖D‖ ≤ 14 * eps / r * V * b.absMass := by
  have hm : MeanVal fun x => potE Q x - potE Q' x := (potE_mean Q).sub (potE_mean Q')
  have hA := Body.absMass_nonneg b
  refine hD.le_of_lip' (by positivity) ?_
  have hmem : {t : ℝ | V * |t - t0| < r} ∈ nhds t0 := by
    refine IsOpen.mem_nhds (isOpen_lt (by fun_prop) continuous_const) ?_
    simpa using hr
  filter_upwards [hmem] with t ht
  have e : ∀ t, multipoleEnergy BIG_G (Mom.ofFn L (Body.inner (b.map fun p => p.move (fun x => c x t) (hc t)))) Q -
      multipoleEnergy BIG_G (Mom.ofFn L (Body.inner (b.map fun p => p.move (fun x => c x t) (hc t)))) Q' =
      (b.map fun p => (p.rho : ℂ) * ∫ x, (potE Q (c x t) - potE Q' (c x t)) ∂p.mu).sum := by
    intro t
    rw [potE_body, potE_body, List.map_map, List.map_map, list_sum_sub]
    congr 1
    refine List.map_congr_left fun p _ => ?_
    simp only [Function.comp]
    rw [Piece.integral_move p _ (hc t) _ (potE_cont Q), Piece.integral_move p _ (hc t) _ (potE_cont Q'),
      integral_sub (f := fun x => potE Q (c x t)) (g := fun x => potE Q' (c x t))
        (p.integrable ((potE_cont Q).comp (hc t))) (p.integrable ((potE_cont Q').comp (hc t)))]
    change (p.rho : ℂ) * _ - (p.rho : ℂ) * _ = _
    ring
  rw [e t, e t0, list_sum_sub]
  refine (list_norm_sum_le b _ (fun p => 14 * eps / r * V * |t - t0| * (|p.rho| * (p.mu Set.univ).toReal)) ?_).trans (le_of_eq ?_)
  · intro p hp
    have := p.fin
    have hi : ∀ t, Integrable (fun x => potE Q (c x t) - potE Q' (c x t)) p.mu := fun t =>
      (p.integrable ((potE_cont Q).comp (hc t))).sub (p.integrable ((potE_cont Q').comp (hc t)))
    rw [← mul_sub, ← integral_sub (hi t) (hi t0), norm_mul, Complex.norm_real, Real.norm_eq_abs]
    have h1 : ‖∫ x, (potE Q (c x t) - potE Q' (c x t) - (potE Q (c x t0) - potE Q' (c x t0))) ∂p.mu‖ ≤
        14 * eps / r * (V * |t - t0|) * (p.mu Set.univ).toReal := by
      refine norm_integral_le_of_norm_le_const ?_
      filter_upwards [hin p hp, hlip p hp] with x hx hl
      refine (hm.lip (c x t0) (c x t) r eps hr ((hl t).trans ht.le) (fun y hy => heps y ?_)).trans ?_
      · have := modulus_add_le (y - c x t0) (c x t0)
        rw [sub_add_cancel] at this
        linarith
      · exact mul_le_mul_of_nonneg_left (hl t) (by positivity)
    calc _ ≤ |p.rho| * (14 * eps / r * (V * |t - t0|) * (p.mu Set.univ).toReal) :=
          mul_le_mul_of_nonneg_left h1 (abs_nonneg _)
      _ = _ := by ring
  · rw [List.sum_map_mul_left, Real.norm_eq_abs, Body.absMass]
    ring

theorem translate_offBall (c : Body) (d : V3) (r : ℝ) (hc : c.InBall r) : (c.translate d).OffBall (modulus d - r) := by
  intro p hp
  rw [Body.translate, List.mem_map] at hp
  obtain ⟨q, hq, rfl⟩ := hp
  change (q.mu.map fun v => v + d) {v | modulus v < modulus d - r} = 0
  rw [Measure.map_apply (by fun_prop) (isOpen_lt modulus_continuous continuous_const).measurableSet]
  refine measure_mono_null ?_ (hc q hq)
  intro v hv
  simp only [Set.mem_preimage, Set.mem_setOf_eq] at hv ⊢
  have h1 := modulus_add_le (v + d) (-v)
  rw [add_neg_cancel_comm, modulus_neg] at h1
  linarith

/-- The error of the energy of a point. -/
noncomputable def ptErr (L : ℕ) (c : Body) (a r D : ℝ) : ℝ :=
  |BIG_G| * c.absMass * (bipErr L (a + r) D + (a / (D - r)) ^ (L + 1) / (D - r - a))

theorem ptErr_tendsto (c : Body) (a r D : ℝ) (ha : 0 ≤ a) (hr : 0 ≤ r) (h : a + r < D) :
    Filter.Tendsto (fun L => ptErr L c a r D) Filter.atTop (nhds 0) := by
  have h1 : Filter.Tendsto (fun L : ℕ => (a / (D - r)) ^ (L + 1)) Filter.atTop (nhds 0) :=
    (tendsto_pow_atTop_nhds_zero_of_lt_one (div_nonneg ha (by linarith)) (by rw [div_lt_one (by linarith)]; linarith)).comp
      (Filter.tendsto_add_atTop_nat 1)
  have h2 := ((bipErr_tendsto (add_nonneg ha hr) h).add (h1.div_const (D - r - a))).const_mul (|BIG_G| * c.absMass)
  simpa [ptErr] using h2

theorem potE_close (L : ℕ) (c : Body) (d : V3) (a r : ℝ) (ha : 0 ≤ a) (h : a + r < modulus d) (hc : c.InBall r) (x : V3)
    (hx : modulus x ≤ a) :
    ‖potE (Mom.ofFn L (trQ (Mom.ofFn L c.inner) d)) x - potE (Mom.ofFn L (c.translate d).outer) x‖ ≤
      ptErr L c a r (modulus d) := by
  have hb : (Body.points [⟨1, x⟩]).InBall a := (Body.points_inBall _ a).2 (by simpa using hx)
  have h1 := bip_body_error L BIG_G (Body.points [⟨1, x⟩]) c d a r h hb hc
  have h2 := body_energy_error L BIG_G (Body.points [⟨1, x⟩]) (c.translate d) a (modulus d - r) ha (by linarith) hb
    (translate_offBall c d r hc)
  rw [potE_point] at h1 h2
  have hm : (Body.points [⟨1, x⟩]).absMass = 1 := by rw [Body.absMass_points]; simp [absMass]
  rw [hm] at h1 h2
  rw [absMass_translate] at h2
  have e : potE (Mom.ofFn L (trQ (Mom.ofFn L c.inner) d)) x - potE (Mom.ofFn L (c.translate d).outer) x =
      (potE (Mom.ofFn L (trQ (Mom.ofFn L c.inner) d)) x - ((Body.points [⟨1, x⟩]).energy BIG_G (c.translate d) : ℂ)) -
      (potE (Mom.ofFn L (c.translate d).outer) x - ((Body.points [⟨1, x⟩]).energy BIG_G (c.translate d) : ℂ)) := by ring
  rw [e, ptErr]
  refine (norm_sub_le _ _).trans ((add_le_add h1 h2).trans (le_of_eq ?_))
  ring

theorem ptErr_nonneg (L : ℕ) (c : Body) (d : V3) (a r : ℝ) (ha : 0 ≤ a) (h : a + r < modulus d) (hc : c.InBall r) :
    0 ≤ ptErr L c a r (modulus d) :=
  (norm_nonneg _).trans (potE_close L c d a r ha h hc 0 (by rw [(modulus_eq_zero 0).2 rfl]; exact ha))

theorem rz_lip (x : V3) (s t : ℝ) : modulus (rz s x - rz t x) ≤ modulus x * |s - t| := by
  have e : (rz s x - rz t x) 0 ^ 2 + (rz s x - rz t x) 1 ^ 2 + (rz s x - rz t x) 2 ^ 2 =
      (x 0 ^ 2 + x 1 ^ 2) * (2 - 2 * Real.cos (s - t)) := by
    simp only [Pi.sub_apply, rz, Matrix.cons_val, Real.cos_sub]
    linear_combination (x 0 ^ 2 + x 1 ^ 2) * (Real.sin_sq_add_cos_sq s + Real.sin_sq_add_cos_sq t)
  rw [modulus, e, modulus, ← Real.sqrt_sq_eq_abs, ← Real.sqrt_mul (by positivity)]
  apply Real.sqrt_le_sqrt
  have h := Real.one_sub_sq_div_two_le_cos (x := s - t)
  have h1 : (x 0 ^ 2 + x 1 ^ 2) * (2 - 2 * Real.cos (s - t)) ≤ (x 0 ^ 2 + x 1 ^ 2) * (s - t) ^ 2 :=
    mul_le_mul_of_nonneg_left (by linarith) (by positivity)
  have h2 : 0 ≤ x 2 ^ 2 * (s - t) ^ 2 := by positivity
  nlinarith

end Newt
