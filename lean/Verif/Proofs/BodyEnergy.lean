import Verif.Proofs.Q2QBody
import Mathlib.MeasureTheory.Integral.Prod

/-! # The multipole energy of arbitrary bodies -/

namespace Newt

open Spec MeasureTheory

/-- The truncated expansion kernel. -/
noncomputable def kernL (L : ℕ) (x y : V3) : ℂ :=
  ∑ l ∈ Finset.range (L + 1), ∑ m ∈ Finset.Icc (-(l : ℤ)) l, solidS l m x * solidO l m y / (2 * l + 1)

theorem kernL_error (L : ℕ) (x y : V3) (a D : ℝ) (hx : modulus x ≤ a) (hy : D ≤ modulus y) (h : a < D) :
    ‖((4 * Real.pi : ℝ) : ℂ) * kernL L x y - ((1 / modulus (y - x) : ℝ) : ℂ)‖ ≤ (a / D) ^ (L + 1) / (D - a) := by
  have hlt : modulus x < modulus y := by linarith
  have hy0 : y ≠ 0 := by
    intro h0
    rw [h0, (modulus_eq_zero 0).2 rfl] at hlt
    linarith [modulus_nonneg x]
  have herr := (laplace_error x y hlt L).trans (pair_error x y a D hx hy h L)
  rw [kernL, Finset.sum_congr rfl fun l _ => term_eq l x y hy0, ← Complex.ofReal_sum, ← Finset.mul_sum,
    ← Complex.ofReal_mul, ← Complex.ofReal_sub, Complex.norm_real, Real.norm_eq_abs]
  have e : modulus (y - x) = dist3 x y := by
    rw [← modulus_neg]
    simp [dist3, modulus, Fin.sum_univ_three]
  rw [e]
  have hp : ∀ s : ℝ, 4 * Real.pi * (1 / (4 * Real.pi) * s) = s := by
    intro s
    have := Real.pi_ne_zero
    field_simp
  rw [hp]
  exact herr

theorem solidO_integrable (mu : Measure V3) [IsFiniteMeasure mu] (l : ℕ) (m : ℤ) (D : ℝ) (hD : 0 < D)
    (h : ∀ᵐ v ∂mu, D ≤ modulus v) : Integrable (solidO l m) mu := by
  have : solidO l m = fun v => ((2 * l + 1 : ℂ) / (Nlm l m : ℂ)) * fO l m v := funext (solidO_fO l m)
  rw [this]
  exact (fO_integrable mu l m id continuous_id D hD h).const_mul _

theorem inv_meas : StronglyMeasurable (Function.uncurry fun x y : V3 => ((1 / modulus (y - x) : ℝ) : ℂ)) := by
  apply Measurable.stronglyMeasurable
  apply Complex.measurable_ofReal.comp
  apply Measurable.div measurable_const
  exact (modulus_continuous.comp (continuous_snd.sub continuous_fst)).measurable

theorem pair_energy (mu nu : Measure V3) [IsFiniteMeasure mu] [IsFiniteMeasure nu]
    (hS : ∀ l m, Integrable (solidS l m) mu) (L : ℕ) (a D : ℝ) (h : a < D) (ha : 0 ≤ a)
    (hmu : ∀ᵐ v ∂mu, modulus v ≤ a) (hnu : ∀ᵐ v ∂nu, D ≤ modulus v) :
    ‖((4 * Real.pi : ℝ) : ℂ) * (∑ l ∈ Finset.range (L + 1), ∑ m ∈ Finset.Icc (-(l : ℤ)) l,
        (∫ x, solidS l m x ∂mu) * (∫ y, solidO l m y ∂nu) / (2 * l + 1))
      - ((∫ x, ∫ y, 1 / modulus (y - x) ∂nu ∂mu : ℝ) : ℂ)‖ ≤
      (a / D) ^ (L + 1) / (D - a) * (nu Set.univ).toReal * (mu Set.univ).toReal := by
  have hD : 0 < D := by linarith
  have hO := fun l m => solidO_integrable nu l m D hD hnu
  have hinner : ∀ x, Integrable (kernL L x) nu := by
    intro x
    unfold kernL
    exact integrable_finset_sum _ fun l _ => integrable_finset_sum _ fun m _ => ((hO l m).const_mul _).div_const _
  have eK : ∀ x, ∫ y, kernL L x y ∂nu = ∑ l ∈ Finset.range (L + 1), ∑ m ∈ Finset.Icc (-(l : ℤ)) l,
      solidS l m x * (∫ y, solidO l m y ∂nu) / (2 * l + 1) := by
    intro x
    unfold kernL
    rw [integral_finset_sum _ fun l _ => integrable_finset_sum _ fun m _ => ((hO l m).const_mul _).div_const _]
    refine Finset.sum_congr rfl fun l _ => ?_
    rw [integral_finset_sum _ fun m _ => ((hO l m).const_mul _).div_const _]
    refine Finset.sum_congr rfl fun m _ => ?_
    rw [integral_div, integral_const_mul]
  have hK : Integrable (fun x => ∫ y, kernL L x y ∂nu) mu := by
    simp only [eK]
    exact integrable_finset_sum _ fun l _ => integrable_finset_sum _ fun m _ => ((hS l m).mul_const _).div_const _
  have e1 : (∑ l ∈ Finset.range (L + 1), ∑ m ∈ Finset.Icc (-(l : ℤ)) l,
        (∫ x, solidS l m x ∂mu) * (∫ y, solidO l m y ∂nu) / (2 * l + 1)) = ∫ x, ∫ y, kernL L x y ∂nu ∂mu := by
    simp only [eK]
    rw [integral_finset_sum _ fun l _ => integrable_finset_sum _ fun m _ => ((hS l m).mul_const _).div_const _]
    refine Finset.sum_congr rfl fun l _ => ?_
    rw [integral_finset_sum _ fun m _ => ((hS l m).mul_const _).div_const _]
    refine Finset.sum_congr rfl fun m _ => ?_
    rw [integral_div, integral_mul_const]
  have hinv : ∀ x y : V3, modulus x ≤ a → D ≤ modulus y → ‖((1 / modulus (y - x) : ℝ) : ℂ)‖ ≤ 1 / (D - a) := by
    intro x y hx hy
    have h1 := modulus_add_le (y - x) x
    rw [sub_add_cancel] at h1
    have h2 : D - a ≤ modulus (y - x) := by linarith
    have h3 : 0 < D - a := by linarith
    rw [Complex.norm_real, Real.norm_eq_abs, abs_of_nonneg (by have := modulus_nonneg (y - x); positivity)]
    gcongr
  have hIx : ∀ x, modulus x ≤ a → Integrable (fun y => ((1 / modulus (y - x) : ℝ) : ℂ)) nu := by
    intro x hx
    refine Integrable.of_bound (C := 1 / (D - a)) ?_ ?_
    · apply Measurable.aestronglyMeasurable
      apply Complex.measurable_ofReal.comp
      apply Measurable.div measurable_const
      exact (modulus_continuous.comp (continuous_id.sub continuous_const)).measurable
    · filter_upwards [hnu] with y hy
      exact hinv x y hx hy
  have hI : Integrable (fun x => ∫ y, ((1 / modulus (y - x) : ℝ) : ℂ) ∂nu) mu := by
    refine Integrable.of_bound (C := 1 / (D - a) * (nu Set.univ).toReal) ?_ ?_
    · exact inv_meas.integral_prod_right.aestronglyMeasurable
    · filter_upwards [hmu] with x hx
      refine norm_integral_le_of_norm_le_const ?_
      filter_upwards [hnu] with y hy
      exact hinv x y hx hy
  have e2 : ((∫ x, ∫ y, 1 / modulus (y - x) ∂nu ∂mu : ℝ) : ℂ) = ∫ x, ∫ y, ((1 / modulus (y - x) : ℝ) : ℂ) ∂nu ∂mu := by
    rw [← integral_complex_ofReal]
    congr 1
    funext x
    rw [← integral_complex_ofReal]
  rw [e1, e2, ← integral_const_mul, ← integral_sub (hK.const_mul _) hI]
  refine norm_integral_le_of_norm_le_const ?_
  filter_upwards [hmu] with x hx
  rw [← integral_const_mul, ← integral_sub ((hinner x).const_mul _) (hIx x hx)]
  refine norm_integral_le_of_norm_le_const ?_
  filter_upwards [hnu] with y hy
  exact kernL_error L x y a D hx hy h

theorem pairSum_bodies (L : ℕ) (b c : Body) :
    pairSum (Mom.ofFn L b.inner) (Mom.ofFn L c.outer) =
      (b.map fun p => (c.map fun q => (p.rho : ℂ) * q.rho * ∑ l ∈ Finset.range (L + 1),
        ∑ m ∈ Finset.Icc (-(l : ℤ)) l, (∫ x, solidS l m x ∂p.mu) * (∫ y, solidO l m y ∂q.mu) / (2 * l + 1)).sum).sum := by
  have e : ∀ l ∈ Finset.range (L + 1), ∀ m ∈ Finset.Icc (-(l : ℤ)) l,
      (Mom.ofFn L b.inner).get l m * (Mom.ofFn L c.outer).get l m / (2 * l + 1) =
      (b.map fun p => (c.map fun q => (p.rho : ℂ) * q.rho *
        ((∫ x, solidS l m x ∂p.mu) * (∫ y, solidO l m y ∂q.mu) / (2 * l + 1))).sum).sum := by
    intro l hl m hm
    rw [Finset.mem_range] at hl
    rw [Finset.mem_Icc] at hm
    rw [Mom.get_ofFn _ (by omega) (by omega), Mom.get_ofFn _ (by omega) (by omega), Body.inner, Body.outer,
      list_sum_mul_list_sum, div_eq_mul_inv, ← List.sum_map_mul_right]
    congr 1
    apply List.map_congr_left
    intro a _
    rw [← List.sum_map_mul_right]
    congr 1
    apply List.map_congr_left
    intro b _
    ring
  rw [pairSum, Finset.sum_congr rfl fun l hl => Finset.sum_congr rfl (e l hl)]
  simp only [finset_sum_list, Finset.mul_sum]

theorem body_energy_error (L : ℕ) (G : ℝ) (b c : Body) (a D : ℝ) (ha : 0 ≤ a) (h : a < D) (hb : b.InBall a)
    (hc : c.OffBall D) :
    ‖multipoleEnergy G (Mom.ofFn L b.inner) (Mom.ofFn L c.outer) - (b.energy G c : ℂ)‖ ≤
      |G| * b.absMass * c.absMass * ((a / D) ^ (L + 1) / (D - a)) := by
  rw [multipoleEnergy, pairSum_bodies, Body.energy, ofReal_list_sum, List.map_map,
    ← List.sum_map_mul_left, list_sum_sub]
  refine (list_norm_sum_le b _ (fun p => |G| * c.absMass * ((a / D) ^ (L + 1) / (D - a)) *
    (|p.rho| * (p.mu Set.univ).toReal)) ?_).trans (le_of_eq ?_)
  · intro p hp
    rw [Function.comp, ofReal_list_sum, List.map_map, ← List.sum_map_mul_left, list_sum_sub]
    refine (list_norm_sum_le c _ (fun q => |G| * ((a / D) ^ (L + 1) / (D - a)) * (|p.rho| * (p.mu Set.univ).toReal)
      * (|q.rho| * (q.mu Set.univ).toReal)) ?_).trans (le_of_eq ?_)
    · intro q hq
      have := p.fin
      have := q.fin
      have key := pair_energy p.mu q.mu (fun l m => p.integrable (continuous_solidS l m)) L a D h ha
        (InBall.ae hb p hp) (OffBall.ae hc q hq)
      rw [Function.comp]
      set S := ∑ l ∈ Finset.range (L + 1), ∑ m ∈ Finset.Icc (-(l : ℤ)) l,
        (∫ x, solidS l m x ∂p.mu) * (∫ y, solidO l m y ∂q.mu) / (2 * l + 1)
      set T := ∫ x, ∫ y, 1 / modulus (y - x) ∂q.mu ∂p.mu
      have e : ((-4 * Real.pi * G : ℝ) : ℂ) * ((p.rho : ℂ) * q.rho * S) - ((-(G * p.rho * q.rho) * T : ℝ) : ℂ)
          = ((-(G * p.rho * q.rho) : ℝ) : ℂ) * (((4 * Real.pi : ℝ) : ℂ) * S - (T : ℂ)) := by
        push_cast; ring
      rw [e, norm_mul, Complex.norm_real, Real.norm_eq_abs, abs_neg, abs_mul, abs_mul]
      calc |G| * |p.rho| * |q.rho| * ‖((4 * Real.pi : ℝ) : ℂ) * S - (T : ℂ)‖
          ≤ |G| * |p.rho| * |q.rho| * ((a / D) ^ (L + 1) / (D - a) * (q.mu Set.univ).toReal * (p.mu Set.univ).toReal) := by
            gcongr
        _ = _ := by ring
    · rw [List.sum_map_mul_left, Body.absMass]; ring
  · rw [List.sum_map_mul_left, Body.absMass, Body.absMass]; ring

end Newt
