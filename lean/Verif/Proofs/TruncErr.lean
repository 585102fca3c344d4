import Verif.Proofs.LegLip
import Verif.Spec.Truncation
import Verif.Props.BodyForce

/-! # The error of truncated forces and torques -/

namespace Newt

open Spec MeasureTheory

variable {mu nu : Measure V3} {c c' : V3 → ℝ → V3} {dS : ℕ → ℤ → V3 → ℝ → ℂ} {t0 δ a V K : ℝ}

/-- The change of a term of the expansion as an integral over pairs. -/
theorem Moving.etm_diff [IsFiniteMeasure mu] [IsFiniteMeasure nu] (h : Moving mu c c' dS t0 δ a V K) (R : ℝ) (hR : 0 < R)
    (hnu : ∀ᵐ v ∂nu, R ≤ modulus v) (l : ℕ) (t : ℝ) (ht : |t - t0| < δ) :
    etm mu nu c l t - etm mu nu c l t0 =
      ∫ x, ∫ y, ((tm l (c x t) y - tm l (c x t0) y : ℝ) : ℂ) ∂nu ∂mu := by
  have h0 : |t0 - t0| < δ := by simpa using h.pos
  have hin : ∀ x, ∫ y, ((tm l (c x t) y - tm l (c x t0) y : ℝ) : ℂ) ∂nu =
      ∑ m ∈ Finset.Icc (-(l : ℤ)) l, (((4 * Real.pi : ℝ) : ℂ) * (∫ y, solidO l m y ∂nu) / (2 * l + 1)) *
        (solidS l m (c x t) - solidS l m (c x t0)) := by
    intro x
    have e : (fun y => ((tm l (c x t) y - tm l (c x t0) y : ℝ) : ℂ)) =ᵐ[nu] fun y =>
        ∑ m ∈ Finset.Icc (-(l : ℤ)) l, (((4 * Real.pi : ℝ) : ℂ) / (2 * l + 1) *
          (solidS l m (c x t) - solidS l m (c x t0))) * solidO l m y := by
      filter_upwards [hnu] with y hy
      have hy0 : y ≠ 0 := by
        intro h0
        rw [h0, (modulus_eq_zero 0).2 rfl] at hy
        linarith
      rw [Complex.ofReal_sub, tm_eq l _ y hy0, tm_eq l _ y hy0, ← mul_sub, ← Finset.sum_sub_distrib, Finset.mul_sum]
      refine Finset.sum_congr rfl fun m _ => ?_
      push_cast
      ring
    rw [integral_congr_ae e, integral_finset_sum _ fun m _ => (solidO_integrable nu l m R hR hnu).const_mul _]
    refine Finset.sum_congr rfl fun m _ => ?_
    rw [integral_const_mul]
    ring
  rw [integral_congr_ae (Filter.Eventually.of_forall hin), integral_finset_sum
    (f := fun m x => (((4 * Real.pi : ℝ) : ℂ) * (∫ y, solidO l m y ∂nu) / (2 * l + 1)) *
      (solidS l m (c x t) - solidS l m (c x t0))) _ fun m _ =>
    ((h.momInt l m t ht).sub (h.momInt l m t0 h0)).const_mul _]
  unfold etm
  rw [← mul_sub, ← Finset.sum_sub_distrib, Finset.mul_sum]
  refine Finset.sum_congr rfl fun m _ => ?_
  rw [integral_const_mul, integral_sub (h.momInt l m t ht) (h.momInt l m t0 h0)]
  ring

/-- The derivative of the degree-`l` term of the pair energy of a body moving with speed `V` at radius `a0`. -/
theorem Moving.etm'_bound [IsFiniteMeasure mu] [IsFiniteMeasure nu] (h : Moving mu c c' dS t0 δ a V K) (R : ℝ) (hR : 0 < R)
    (hnu : ∀ᵐ v ∂nu, R ≤ modulus v) (a0 W : ℝ) (ha0 : 0 ≤ a0) (hW : 0 ≤ W) (hin : ∀ᵐ x ∂mu, modulus (c x t0) ≤ a0)
    (hlip : ∀ᵐ x ∂mu, ∀ t, |t - t0| < δ → modulus (c x t - c x t0) ≤ W * |t - t0|) (l : ℕ) :
    |(etm' mu nu dS l t0).re| ≤
      W * (l * a0 ^ (l - 1) / R ^ (l + 1)) * (nu Set.univ).toReal * (mu Set.univ).toReal := by
  have h0 : |t0 - t0| < δ := by simpa using h.pos
  have hder := hasDerivAt_re (h.etm_deriv (nu := nu) l t0 h0)
  set M := (mu Set.univ).toReal
  set N := (nu Set.univ).toReal
  have hlim : Filter.Tendsto (fun s : ℝ => W * (l * s ^ (l - 1) / R ^ (l + 1)) * N * M) (nhdsWithin a0 (Set.Ioi a0))
      (nhds (W * (l * a0 ^ (l - 1) / R ^ (l + 1)) * N * M)) := by
    have hc : Continuous fun s : ℝ => W * (l * s ^ (l - 1) / R ^ (l + 1)) * N * M := by fun_prop
    exact (hc.tendsto a0).mono_left nhdsWithin_le_nhds
  refine ge_of_tendsto hlim ?_
  filter_upwards [self_mem_nhdsWithin] with s hs
  have hs' : a0 < s := hs
  have hs0 : 0 ≤ s := by linarith
  rw [← Real.norm_eq_abs]
  refine hder.le_of_lip' (by positivity) ?_
  have hε : 0 < (s - a0) / (W + 1) := by apply div_pos <;> linarith
  filter_upwards [near_mem (t0 := t0) (δ := δ) (t := t0) h0,
    near_mem (t0 := t0) (δ := (s - a0) / (W + 1)) (t := t0) (by simpa using hε)] with t ht ht2
  have ht' : |t - t0| < δ := ht
  have ht2' : |t - t0| < (s - a0) / (W + 1) := ht2
  rw [← Complex.sub_re, h.etm_diff R hR hnu l t ht', Real.norm_eq_abs, Real.norm_eq_abs]
  refine (Complex.abs_re_le_norm _).trans ?_
  have e : W * (l * s ^ (l - 1) / R ^ (l + 1)) * N * M * |t - t0| =
      (l * s ^ (l - 1) / R ^ (l + 1) * (W * |t - t0|)) * N * M := by ring
  rw [e]
  refine norm_integral_le_of_norm_le_const ?_
  filter_upwards [hin, hlip] with x hx hl
  refine norm_integral_le_of_norm_le_const ?_
  filter_upwards [hnu] with y hy
  have hy0 : y ≠ 0 := by
    intro h0
    rw [h0, (modulus_eq_zero 0).2 rfl] at hy
    linarith
  rw [Complex.norm_real, Real.norm_eq_abs]
  have hstep := hl t ht'
  have hsmall : W * |t - t0| ≤ s - a0 := by
    have h1 : (W + 1) * |t - t0| ≤ s - a0 := by
      rw [mul_comm]; exact ((lt_div_iff₀ (by linarith)).1 ht2').le
    have := abs_nonneg (t - t0)
    linarith
  have hxt : modulus (c x t) ≤ s := by
    have := modulus_add_le (c x t - c x t0) (c x t0)
    rw [sub_add_cancel] at this
    linarith
  refine (tm_lip l s _ _ y hxt (by linarith) hy0).trans ?_
  gcongr
  exact modulus_nonneg _

theorem missed_hasSum (a R : ℝ) (ha : 0 ≤ a) (haR : a < R) (L : ℕ) :
    HasSum (fun k : ℕ => ((k + (L + 1) : ℕ) : ℝ) * a ^ (k + (L + 1) - 1) / R ^ (k + (L + 1) + 1)) (missed a R L) := by
  have hR : 0 < R := by linarith
  have hx : ‖a / R‖ < 1 := by
    rw [Real.norm_eq_abs, abs_of_nonneg (by positivity), div_lt_one hR]; exact haR
  have h1 := hasSum_coe_mul_geometric_of_norm_lt_one hx
  have h2 := (hasSum_geometric_of_norm_lt_one hx).mul_left ((L : ℝ) + 1)
  have h3 := (h1.add h2).mul_left ((a / R) ^ L / R ^ 2)
  have hne : R - a ≠ 0 := by linarith
  have e : (a / R) ^ L / R ^ 2 * (a / R / (1 - a / R) ^ 2 + (L + 1) * (1 - a / R)⁻¹) = missed a R L := by
    unfold Spec.missed
    have : 1 - a / R = (R - a) / R := by field_simp
    rw [this]
    generalize (a / R) ^ L = g
    field_simp
    ring
  rw [e] at h3
  refine h3.congr_fun fun k => ?_
  rw [show k + (L + 1) - 1 = L + k by omega, show k + (L + 1) + 1 = L + k + 2 by omega, div_pow, div_pow, pow_add, pow_add, pow_add]
  push_cast
  field_simp

theorem list_abs_sum_le {α : Type*} (A : List α) (f g : α → ℝ) (h : ∀ a ∈ A, |f a| ≤ g a) : |(A.map f).sum| ≤ (A.map g).sum := by
  induction A with
  | nil => simp
  | cons a A ih =>
    rw [List.map_cons, List.sum_cons, List.map_cons, List.sum_cons]
    exact (abs_add_le _ _).trans (add_le_add (h a (by simp)) (ih fun b hb => h b (by simp [hb])))

theorem list_sum_sub_real {α : Type*} (A : List α) (f g : α → ℝ) :
    (A.map f).sum - (A.map g).sum = (A.map fun a => f a - g a).sum := by
  induction A with
  | nil => simp
  | cons a A ih => simp only [List.map_cons, List.sum_cons]; rw [← ih]; ring

/-- One pair of pieces: what the terms up to degree `L` leave out. -/
theorem Moving.tail [IsFiniteMeasure mu] [IsFiniteMeasure nu] (h : Moving mu c c' dS t0 δ a V K) (R : ℝ) (haR : a < R)
    (hnu : ∀ᵐ v ∂nu, R ≤ modulus v) (a0 W : ℝ) (ha0 : 0 ≤ a0) (h0R : a0 < R) (hW : 0 ≤ W)
    (hin : ∀ᵐ x ∂mu, modulus (c x t0) ≤ a0)
    (hlip : ∀ᵐ x ∂mu, ∀ t, |t - t0| < δ → modulus (c x t - c x t0) ≤ W * |t - t0|) (L : ℕ) :
    |∑ l ∈ Finset.range (L + 1), (etm' mu nu dS l t0).re -
      ∫ x, ∫ y, ((y - c x t0) ⬝ᵥ c' x t0) / modulus (y - c x t0) ^ 3 ∂nu ∂mu| ≤
      W * missed a0 R L * (nu Set.univ).toReal * (mu Set.univ).toReal := by
  have hR : 0 < R := by linarith
  have hs := h.conv R haR hnu
  have ht := (hasSum_nat_add_iff' (L + 1)).2 hs
  have hb := (((missed_hasSum a0 R ha0 h0R L).mul_left W).mul_right (nu Set.univ).toReal).mul_right (mu Set.univ).toReal
  have := tsum_of_norm_bounded hb (f := fun k => (etm' mu nu dS (k + (L + 1)) t0).re) fun k => by
    rw [Real.norm_eq_abs]
    exact h.etm'_bound R hR hnu a0 W ha0 hW hin hlip _
  rw [ht.tsum_eq, Real.norm_eq_abs, abs_sub_comm] at this
  exact this

/-- The error of the derivative of the truncated energy of a moving body. -/
theorem moving_error (G : ℝ) (b d : Body) (c c' : V3 → ℝ → V3) (dS : ℕ → ℤ → V3 → ℝ → ℂ) (t0 δ a V K R a0 W : ℝ)
    (haR : a < R) (hc : ∀ t, Continuous fun x => c x t)
    (hmov : ∀ p ∈ b, Moving p.mu c c' dS t0 δ a V K) (hd : d.OffBall R) (L : ℕ) (E : ℝ → ℝ) (D : ℝ)
    (ha0 : 0 ≤ a0) (h0R : a0 < R) (hW : 0 ≤ W) (hin : ∀ p ∈ b, ∀ᵐ x ∂p.mu, modulus (c x t0) ≤ a0)
    (hlip : ∀ p ∈ b, ∀ᵐ x ∂p.mu, ∀ t, |t - t0| < δ → modulus (c x t - c x t0) ≤ W * |t - t0|)
    (hE : ∀ t, (E t : ℂ) = multipoleEnergy G
      (Mom.ofFn L (Body.inner (b.map fun p => p.move (fun x => c x t) (hc t)))) (Mom.ofFn L d.outer))
    (hD : HasDerivAt E D t0) :
    |D - (b.map fun p => (d.map fun q => -(G * p.rho * q.rho) *
      ∫ x, ∫ y, ((y - c x t0) ⬝ᵥ c' x t0) / modulus (y - c x t0) ^ 3 ∂q.mu ∂p.mu).sum).sum| ≤
      |G| * b.absMass * d.absMass * (W * missed a0 R L) := by
  have hEe : E = fun t => (b.map fun p => (d.map fun q => -(G * p.rho * q.rho) *
      ∑ l ∈ Finset.range (L + 1), (etm p.mu q.mu c l t).re).sum).sum := by
    funext t
    have h1 := hE t
    rw [energy_moving] at h1
    have h2 := congrArg Complex.re h1
    rw [Complex.ofReal_re] at h2
    rw [h2, re_list_sum, List.map_map]
    congr 1
    apply List.map_congr_left
    intro p _
    rw [Function.comp, re_list_sum, List.map_map]
    congr 1
    apply List.map_congr_left
    intro q _
    rw [Function.comp, Complex.re_ofReal_mul, Complex.re_sum]
  have hder : HasDerivAt E ((b.map fun p => (d.map fun q => -(G * p.rho * q.rho) *
      ∑ l ∈ Finset.range (L + 1), (etm' p.mu q.mu dS l t0).re).sum).sum) t0 := by
    rw [hEe]
    apply hasDerivAt_list_sum
    intro p hp
    apply hasDerivAt_list_sum
    intro q hq
    apply HasDerivAt.const_mul
    apply HasDerivAt.fun_sum
    intro l _
    have := p.fin
    exact hasDerivAt_re ((hmov p hp).etm_deriv l t0 (by simpa using (hmov p hp).pos))
  rw [hD.unique hder, list_sum_sub_real]
  have e1 : |G| * b.absMass * d.absMass * (W * missed a0 R L) = (b.map fun p => (d.map fun q =>
      |G| * |p.rho| * |q.rho| * (W * missed a0 R L * (q.mu Set.univ).toReal * (p.mu Set.univ).toReal)).sum).sum := by
    have e2 : |G| * b.absMass * d.absMass * (W * missed a0 R L) = b.absMass * (|G| * d.absMass * (W * missed a0 R L)) := by ring
    rw [e2, Body.absMass, ← List.sum_map_mul_right]
    congr 1
    apply List.map_congr_left
    intro p _
    have e3 : |p.rho| * (p.mu Set.univ).toReal * (|G| * d.absMass * (W * missed a0 R L)) =
        d.absMass * (|p.rho| * (p.mu Set.univ).toReal * (|G| * (W * missed a0 R L))) := by ring
    rw [e3, Body.absMass, ← List.sum_map_mul_right]
    congr 1
    apply List.map_congr_left
    intro q _
    ring
  rw [e1]
  refine list_abs_sum_le _ _ _ fun p hp => ?_
  rw [list_sum_sub_real]
  refine list_abs_sum_le _ _ _ fun q hq => ?_
  have := p.fin
  have := q.fin
  rw [← mul_sub, abs_mul, abs_neg, abs_mul, abs_mul]
  gcongr
  exact (hmov p hp).tail R haR (OffBall.ae hd q hq) a0 W ha0 h0R hW (hin p hp) (hlip p hp) L

theorem rz_chord (x : V3) (s t : ℝ) : modulus (rz t x - rz s x) ≤ modulus x * |t - s| := by
  refine (sq_le_sq₀ (modulus_nonneg _) (mul_nonneg (modulus_nonneg _) (abs_nonneg _))).1 ?_
  rw [mul_pow, sq_abs, modulus_sq, modulus_sq]
  have h1 := Real.one_sub_sq_div_two_le_cos (x := t - s)
  rw [Real.cos_sub] at h1
  have e : nsq (rz t x - rz s x) = (x 0 ^ 2 + x 1 ^ 2) * (2 - 2 * (Real.cos t * Real.cos s + Real.sin t * Real.sin s)) := by
    have h2 := Real.cos_sq_add_sin_sq t
    have h3 := Real.cos_sq_add_sin_sq s
    simp only [nsq, rz, Pi.sub_apply, Matrix.cons_val]
    linear_combination (x 0 ^ 2 + x 1 ^ 2) * (h2 + h3)
  rw [e]
  have h4 : nsq x = x 0 ^ 2 + x 1 ^ 2 + x 2 ^ 2 := rfl
  rw [h4]
  calc _ ≤ (x 0 ^ 2 + x 1 ^ 2) * (t - s) ^ 2 := by
        refine mul_le_mul_of_nonneg_left ?_ (by positivity)
        linarith
    _ ≤ _ := by
        refine mul_le_mul_of_nonneg_right ?_ (by positivity)
        nlinarith [sq_nonneg (x 2)]

end Newt
