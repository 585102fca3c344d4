import Verif.Proofs.Body
import Verif.Proofs.PlanarNgon
import Verif.Proofs.QlmCyl
import Mathlib.MeasureTheory.Constructions.Pi

/-!
# The first moment and the volume from the moments; compactness of the solids
-/

namespace Newt

open Spec MeasureTheory

theorem solidS_one_zero (v : V3) : solidS 1 0 v = ((Real.sqrt (3 / (4 * Real.pi)) * v 2 : ℝ) : ℂ) := by
  have hR : Rsol 1 0 v = v 2 := by
    simp [Rsol, zc, uPoly, Polynomial.coeff_X, Polynomial.coeff_C, Polynomial.coeff_X_pow]
  have hN : Nlm 1 0 = Real.sqrt (3 / (4 * Real.pi)) := by
    rw [Nlm]; congr 1; norm_num
  rw [solidS, hR, hN]; push_cast; ring

theorem solidS_one_one (v : V3) : solidS 1 1 v =
    -((Real.sqrt (3 / (2 * Real.pi)) / 2 : ℝ) : ℂ) * ((v 0 : ℂ) - Complex.I * v 1) := by
  have hR : Rsol 1 1 v = -((v 0 : ℂ) - Complex.I * v 1) / 2 := by
    simp [Rsol, zc, uPoly, Polynomial.coeff_X, Polynomial.coeff_C, Polynomial.coeff_X_pow,
      Polynomial.coeff_one]
  have hN : Nlm 1 1 = Real.sqrt (3 / (2 * Real.pi)) := by
    rw [Nlm]; congr 1; norm_num [show Int.toNat 2 = 2 from rfl]; field_simp; norm_num
  rw [solidS, hR, hN]; push_cast; ring

namespace Spec.Body

theorem inner_one_zero (b : Body) : b.inner 1 0 = ((Real.sqrt (3 / (4 * Real.pi)) * b.first 2 : ℝ) : ℂ) := by
  induction b with
  | nil => simp [Body.inner, Body.first]
  | cons p b ih =>
    have e : ∀ (p : Piece) (b : Body), (p :: b) = [p] ++ b := fun _ _ => rfl
    rw [e, inner_append, first_append, ih, mul_add, Complex.ofReal_add]
    congr 1
    simp only [Body.inner, Body.first, List.map_cons, List.map_nil, List.sum_cons, List.sum_nil, add_zero,
      solidS_one_zero]
    rw [integral_complex_ofReal, integral_const_mul]
    push_cast; ring

theorem inner_one_one (b : Body) : b.inner 1 1 =
    -((Real.sqrt (3 / (2 * Real.pi)) / 2 : ℝ) : ℂ) * ((b.first 0 : ℂ) - Complex.I * b.first 1) := by
  induction b with
  | nil => simp [Body.inner, Body.first]
  | cons p b ih =>
    have e : ∀ (p : Piece) (b : Body), (p :: b) = [p] ++ b := fun _ _ => rfl
    have hc : ∀ i : Fin 3, Integrable (fun v : V3 => ((v i : ℝ) : ℂ)) p.mu := fun i =>
      p.integrable (Complex.continuous_ofReal.comp (continuous_apply i))
    rw [e, inner_append, first_append, first_append, ih]
    simp only [Body.inner, Body.first, List.map_cons, List.map_nil, List.sum_cons, List.sum_nil, add_zero,
      solidS_one_one]
    rw [integral_const_mul, integral_sub (hc 0) ((hc 1).const_mul _), integral_const_mul,
      integral_complex_ofReal, integral_complex_ofReal]
    push_cast; ring

/-- The first moment vanishes iff the moments of degree one do. -/
theorem first_zero_iff (b : Body) : (∀ i, b.first i = 0) ↔ b.inner 1 0 = 0 ∧ b.inner 1 1 = 0 := by
  have h1 : Real.sqrt (3 / (4 * Real.pi)) ≠ 0 := (Real.sqrt_pos.2 (by positivity)).ne'
  have h2 : Real.sqrt (3 / (2 * Real.pi)) / 2 ≠ 0 := (div_pos (Real.sqrt_pos.2 (by positivity)) two_pos).ne'
  rw [inner_one_zero, inner_one_one]
  constructor
  · intro h; simp [h]
  · rintro ⟨e1, e2⟩
    rw [Complex.ofReal_eq_zero, mul_eq_zero] at e1
    have e1 := e1.resolve_left h1
    rw [mul_eq_zero, neg_eq_zero, Complex.ofReal_eq_zero] at e2
    have e2 := e2.resolve_left h2
    have er := congrArg Complex.re e2
    have ei := congrArg Complex.im e2
    simp at er ei
    intro i
    fin_cases i
    · exact er
    · exact ei
    · exact e1

end Spec.Body

theorem prism_compact (H : ℝ) (B : Set (ℝ × ℝ)) (hB : IsCompact B) : IsCompact (prism H B) := by
  have : prism H B = (fun q : ℝ × (ℝ × ℝ) => (![q.2.1, q.2.2, q.1] : V3)) '' (Set.Icc (-(H / 2)) (H / 2) ×ˢ B) := by
    ext v
    simp only [prism, Set.mem_setOf_eq, Set.mem_image, Set.mem_prod, Set.mem_Icc, Prod.exists]
    constructor
    · rintro ⟨h1, h2, h3⟩
      refine ⟨v 2, v 0, v 1, ⟨⟨h1, h2⟩, h3⟩, ?_⟩
      funext i; fin_cases i <;> rfl
    · rintro ⟨z, x, y, ⟨⟨h1, h2⟩, h3⟩, rfl⟩
      exact ⟨h1, h2, h3⟩
  rw [this]
  refine (isCompact_Icc.prod hB).image (continuous_pi fun i => ?_)
  fin_cases i
  · exact continuous_fst.comp continuous_snd
  · exact continuous_snd.comp continuous_snd
  · exact continuous_fst

theorem coneOver_compactV (P : ℝ) (B : Set (ℝ × ℝ)) (hB : IsCompact B) : IsCompact (coneOver P B) := by
  have : coneOver P B = (fun q : ℝ × (ℝ × ℝ) => (![q.1 * q.2.1, q.1 * q.2.2, (1 - q.1) * P] : V3)) ''
      (Set.Icc 0 1 ×ˢ B) := by
    ext v
    simp only [coneOver, Set.mem_setOf_eq, Set.mem_image, Set.mem_prod, Set.mem_Icc, Prod.exists]
    constructor
    · rintro ⟨s, h1, h2, a, b, h3, e1, e2, e3⟩
      refine ⟨s, a, b, ⟨⟨h1, h2⟩, h3⟩, ?_⟩
      funext i; fin_cases i
      · exact e1.symm
      · exact e2.symm
      · exact e3.symm
    · rintro ⟨s, a, b, ⟨⟨h1, h2⟩, h3⟩, rfl⟩
      exact ⟨s, h1, h2, a, b, h3, rfl, rfl, rfl⟩
  rw [this]
  refine (isCompact_Icc.prod hB).image (continuous_pi fun i => ?_)
  fin_cases i
  · exact continuous_fst.mul (continuous_fst.comp continuous_snd)
  · exact continuous_fst.mul (continuous_snd.comp continuous_snd)
  · exact (continuous_const.sub continuous_fst).mul continuous_const

/-- A solid whose monopole comes out right has positive volume. -/
theorem vol_of_monopole (S : Set V3) (h : uniformMoment 1 S 0 0 ≠ 0) : (volume S).toReal ≠ 0 := by
  intro h0
  apply h
  simp [uniformMoment, h0]

/-- The first moment of a solid on one side of a coordinate plane is not zero. -/
theorem solid_first_ne (mass c : ℝ) (i : Fin 3) (S : Set V3) (hm : mass ≠ 0) (hc : c ≠ 0) (hS : IsCompact S)
    (hv : (volume S).toReal ≠ 0) (hpos : ∀ v ∈ S, 0 ≤ c * v i) : (Body.solid mass S hS).first i ≠ 0 := by
  simp only [Body.first, Body.solid, List.map_cons, List.map_nil, List.sum_cons, List.sum_nil, add_zero]
  refine mul_ne_zero (div_ne_zero hm hv) ?_
  have hint : IntegrableOn (fun v : V3 => c * v i) S :=
    (continuous_const.mul (continuous_apply i)).continuousOn.integrableOn_compact hS
  have : 0 < ∫ v in S, c * v i := by
    refine (setIntegral_pos_iff_support_of_nonneg_ae ?_ hint).2 ?_
    · exact (ae_restrict_mem hS.isClosed.measurableSet).mono fun v hv => hpos v hv
    · have h0 : volume {v : V3 | v i = 0} = 0 := Measure.pi_hyperplane _ i 0
      have : (Function.support fun v : V3 => c * v i) ∩ S = S \ {v : V3 | v i = 0} := by
        ext v; simp [hc, and_comm]
      rw [this, measure_diff_null h0]
      exact pos_iff_ne_zero.2 fun h => hv (by rw [h]; rfl)
  rw [integral_const_mul] at this
  intro h0
  rw [h0] at this
  simp at this

end Newt
