import Verif.Proofs.SolidExpand
import Verif.Spec.Solids
import Mathlib.MeasureTheory.Integral.Prod
import Mathlib.MeasureTheory.Constructions.Pi
import Mathlib.MeasureTheory.Measure.Haar.NormedSpace
import Mathlib.MeasureTheory.Measure.Lebesgue.VolumeOfBalls
import Mathlib.Analysis.SpecialFunctions.Integrals.Basic

/-! # Integrals of solid harmonics over prisms and cones reduce to planar moments -/

namespace Newt

open MeasureTheory Finset Spec
open scoped Pointwise

/-- `v ↦ (z, (x, y))` as a measurable equivalence. -/
noncomputable def cyl : V3 ≃ᵐ ℝ × (ℝ × ℝ) :=
  (MeasurableEquiv.piFinSuccAbove (fun _ : Fin 3 => ℝ) 2).trans
    (MeasurableEquiv.prodCongr (MeasurableEquiv.refl ℝ) MeasurableEquiv.finTwoArrow)

theorem cyl_apply (v : V3) : cyl v = (v 2, (v 0, v 1)) := rfl

theorem cyl_mp : MeasurePreserving cyl (volume : Measure V3) volume :=
  ((MeasurePreserving.id (volume : Measure ℝ)).prod (volume_preserving_finTwoArrow ℝ)).comp
    (volume_preserving_piFinSuccAbove (fun _ : Fin 3 => ℝ) 2)

theorem setIntegral_cyl (S : Set (ℝ × (ℝ × ℝ))) (F : ℝ × (ℝ × ℝ) → ℂ) :
    ∫ v in {v : V3 | (v 2, (v 0, v 1)) ∈ S}, F (v 2, (v 0, v 1)) = ∫ p in S, F p :=
  cyl_mp.setIntegral_preimage_emb cyl.measurableEmbedding F S

/-- The planar moment `∫_B (x-iy)^m (x^2+y^2)^k`. -/
noncomputable def pmf (m k : ℕ) (p : ℝ × ℝ) : ℂ :=
  ((p.1 : ℂ) - Complex.I * p.2) ^ m * ((p.1 : ℂ) ^ 2 + (p.2 : ℂ) ^ 2) ^ k

theorem pmf_continuous (m k : ℕ) : Continuous (pmf m k) := by
  unfold pmf; fun_prop

theorem pmf_smul (m k : ℕ) (s : ℝ) (p : ℝ × ℝ) :
    pmf m k (s • p) = (s : ℂ) ^ (m + 2 * k) * pmf m k p := by
  simp only [pmf, Prod.smul_fst, Prod.smul_snd, smul_eq_mul]
  push_cast
  rw [show (s : ℂ) * p.1 - Complex.I * (s * p.2) = s * (p.1 - Complex.I * p.2) by ring,
    show ((s : ℂ) * p.1) ^ 2 + (s * p.2) ^ 2 = s ^ 2 * (p.1 ^ 2 + p.2 ^ 2) by ring, mul_pow, mul_pow]
  ring

noncomputable def pm (B : Set (ℝ × ℝ)) (m k : ℕ) : ℂ := ∫ p in B, pmf m k p

theorem solidS_cyl (l m : ℕ) (hm : m ≤ l) (v : V3) :
    solidS l m v = ∑ k ∈ range ((l - m) / 2 + 1), ((Nlm l m * rc l m k : ℝ) : ℂ) *
      (((v 2 : ℂ)) ^ (l - m - 2 * k) * pmf m k (v 0, v 1)) := by
  rw [solidS, Rsol_expand l m hm, mul_sum]
  refine sum_congr rfl fun k _ => ?_
  simp only [pmf]; push_cast; ring

theorem continuous_Rsol_term (e m k : ℕ) :
    Continuous fun p : ℝ × (ℝ × ℝ) => ((p.1 : ℂ)) ^ e * pmf m k p.2 := by
  have := pmf_continuous m k
  fun_prop

/-- Integral of a solid harmonic over a compact set, term by term. -/
theorem solid_int_expand (l m : ℕ) (hm : m ≤ l) (S : Set (ℝ × (ℝ × ℝ))) (hS : IsCompact S) :
    ∫ v in {v : V3 | (v 2, (v 0, v 1)) ∈ S}, solidS l m v
      = ∑ k ∈ range ((l - m) / 2 + 1), ((Nlm l m * rc l m k : ℝ) : ℂ) *
        ∫ p in S, ((p.1 : ℂ)) ^ (l - m - 2 * k) * pmf m k p.2 := by
  have h1 : ∀ v : V3, solidS l m v = (fun p : ℝ × (ℝ × ℝ) =>
      ∑ k ∈ range ((l - m) / 2 + 1), ((Nlm l m * rc l m k : ℝ) : ℂ) *
        (((p.1 : ℂ)) ^ (l - m - 2 * k) * pmf m k p.2)) (v 2, (v 0, v 1)) := solidS_cyl l m hm
  rw [integral_congr_ae (Filter.Eventually.of_forall h1)]
  rw [setIntegral_cyl S (fun p : ℝ × (ℝ × ℝ) =>
      ∑ k ∈ range ((l - m) / 2 + 1), ((Nlm l m * rc l m k : ℝ) : ℂ) *
        (((p.1 : ℂ)) ^ (l - m - 2 * k) * pmf m k p.2)), integral_finset_sum]
  · exact sum_congr rfl fun k _ => integral_const_mul _ _
  · intro k _
    exact ((continuous_Rsol_term _ m k).const_mul _).continuousOn.integrableOn_compact hS

/-! ## Prisms -/

theorem prism_eq (H : ℝ) (B : Set (ℝ × ℝ)) :
    prism H B = {v : V3 | (v 2, (v 0, v 1)) ∈ Set.Icc (-(H / 2)) (H / 2) ×ˢ B} := by
  ext v; simp [prism, and_assoc]

/-- `∫_{-H/2}^{H/2} z^j dz`. -/
noncomputable def zint (H : ℝ) (j : ℕ) : ℝ := ∫ z in (-(H / 2))..(H / 2), z ^ j

theorem zint_odd (H : ℝ) (j : ℕ) (hj : j % 2 = 1) : zint H j = 0 := by
  rw [zint, integral_pow, Even.neg_pow (by rw [Nat.even_iff]; omega)]; simp

theorem zint_even (H : ℝ) (j : ℕ) (hj : j % 2 = 0) : zint H j = 2 * (H / 2) ^ (j + 1) / (j + 1) := by
  rw [zint, integral_pow, Odd.neg_pow (by rw [Nat.odd_iff]; omega)]; ring

theorem prism_int (H : ℝ) (hH : 0 < H) (B : Set (ℝ × ℝ)) (hB : IsCompact B) (l m : ℕ) (hm : m ≤ l) :
    ∫ v in prism H B, solidS l m v
      = ∑ k ∈ range ((l - m) / 2 + 1), ((Nlm l m * rc l m k : ℝ) : ℂ) *
        (((zint H (l - m - 2 * k) : ℝ) : ℂ) * pm B m k) := by
  rw [prism_eq, solid_int_expand l m hm _ (isCompact_Icc.prod hB)]
  refine sum_congr rfl fun k _ => ?_
  congr 1
  have := setIntegral_prod_mul (μ := (volume : Measure ℝ)) (ν := (volume : Measure (ℝ × ℝ)))
    (fun z : ℝ => (z : ℂ) ^ (l - m - 2 * k)) (pmf m k) (Set.Icc (-(H / 2)) (H / 2)) B
  rw [← Measure.volume_eq_prod] at this
  rw [this, pm]
  congr 1
  rw [zint, intervalIntegral.integral_of_le (by linarith), ← integral_Icc_eq_integral_Ioc,
    ← integral_complex_ofReal]
  congr 1; ext z; push_cast; rfl

theorem solidS_zero_zero (v : V3) : solidS 0 0 v = (Nlm 0 0 : ℂ) := by
  rw [solidS, Rsol_zero_zero, mul_one]

theorem volume_toReal (S : Set V3) : (((volume S).toReal : ℝ) : ℂ) = ∫ _ in S, (1 : ℂ) := by
  rw [setIntegral_const]; simp [Measure.real]

theorem pm_zero (B : Set (ℝ × ℝ)) : pm B 0 0 = (((volume B).toReal : ℝ) : ℂ) := by
  simp [pm, pmf, Measure.real]

theorem prism_vol (H : ℝ) (hH : 0 < H) (B : Set (ℝ × ℝ)) :
    (volume (prism H B)).toReal = H * (volume B).toReal := by
  have : (volume (prism H B)) = volume (Set.Icc (-(H / 2)) (H / 2) ×ˢ B) := by
    rw [← cyl_mp.measure_preimage_emb cyl.measurableEmbedding, prism_eq]; rfl
  rw [this, Measure.volume_eq_prod, Measure.prod_prod, ENNReal.toReal_mul, Real.volume_Icc,
    ENNReal.toReal_ofReal (by linarith)]
  ring

/-! ## Cones -/

theorem coneOver_compact (P : ℝ) (B : Set (ℝ × ℝ)) (hB : IsCompact B) :
    IsCompact {q : ℝ × (ℝ × ℝ) | ∃ s : ℝ, 0 ≤ s ∧ s ≤ 1 ∧ ∃ b ∈ B, q.2.1 = s * b.1 ∧
      q.2.2 = s * b.2 ∧ q.1 = (1 - s) * P} := by
  have h : IsCompact ((fun x : ℝ × (ℝ × ℝ) => (((1 - x.1) * P, (x.1 * x.2.1, x.1 * x.2.2)) :
      ℝ × (ℝ × ℝ))) '' (Set.Icc 0 1 ×ˢ B)) :=
    (isCompact_Icc.prod hB).image (by fun_prop)
  convert h using 1
  ext ⟨z, x, y⟩
  simp only [Set.mem_setOf_eq, Set.mem_image, Set.mem_prod, Set.mem_Icc, Prod.exists, Prod.mk.injEq]
  constructor
  · rintro ⟨s, h0, h1, b1, b2, hb, h2, h3, h4⟩
    exact ⟨s, b1, b2, ⟨⟨h0, h1⟩, hb⟩, h4.symm, h2.symm, h3.symm⟩
  · rintro ⟨s, b1, b2, ⟨⟨h0, h1⟩, hb⟩, h4, h2, h3⟩
    exact ⟨s, h0, h1, b1, b2, hb, h2.symm, h3.symm, h4.symm⟩

/-- `∫_0^P z^e (1-z/P)^(n) dz`. -/
noncomputable def bint (P : ℝ) (e n : ℕ) : ℝ := ∫ z in (0 : ℝ)..P, z ^ e * (1 - z / P) ^ n

theorem cone_term (P : ℝ) (hP : 0 < P) (B : Set (ℝ × ℝ)) (hB : IsCompact B) (e m k : ℕ) :
    ∫ q in {q : ℝ × (ℝ × ℝ) | ∃ s : ℝ, 0 ≤ s ∧ s ≤ 1 ∧ ∃ b ∈ B, q.2.1 = s * b.1 ∧
      q.2.2 = s * b.2 ∧ q.1 = (1 - s) * P}, ((q.1 : ℂ)) ^ e * pmf m k q.2
      = ((bint P e (m + 2 * k + 2) : ℝ) : ℂ) * pm B m k := by
  set S := {q : ℝ × (ℝ × ℝ) | ∃ s : ℝ, 0 ≤ s ∧ s ≤ 1 ∧ ∃ b ∈ B, q.2.1 = s * b.1 ∧
      q.2.2 = s * b.2 ∧ q.1 = (1 - s) * P} with hS
  have hc := coneOver_compact P B hB
  rw [← hS] at hc
  set f : ℝ × (ℝ × ℝ) → ℂ := fun q => ((q.1 : ℂ)) ^ e * pmf m k q.2 with hf
  have hint : IntegrableOn f S := (continuous_Rsol_term e m k).continuousOn.integrableOn_compact hc
  rw [← integral_indicator hc.measurableSet]
  have hint2 : Integrable (S.indicator f) := (integrable_indicator_iff hc.measurableSet).2 hint
  rw [Measure.volume_eq_prod] at hint2 ⊢
  rw [integral_prod _ hint2]
  -- slices
  have key : ∀ z : ℝ, z ≠ P → ∫ y : ℝ × ℝ, S.indicator f (z, y)
      = (Set.Ioc (0 : ℝ) P).indicator (fun z => ((z ^ e * (1 - z / P) ^ (m + 2 * k + 2) : ℝ) : ℂ) * pm B m k) z
        ∨ z = 0 := by
    intro z hz
    by_cases h0 : z = 0
    · exact Or.inr h0
    left
    by_cases hz1 : z ∈ Set.Ioc (0 : ℝ) P
    · rw [Set.indicator_of_mem hz1]
      have hzP : z < P := lt_of_le_of_ne hz1.2 hz
      set s := 1 - z / P with hs
      have hs0 : 0 < s := by rw [hs, sub_pos, div_lt_one hP]; exact hzP
      have hs1 : s ≤ 1 := by rw [hs]; have := div_pos hz1.1 hP; linarith
      have hzs : z = (1 - s) * P := by rw [hs]; field_simp; ring
      have hslice : (fun y : ℝ × ℝ => S.indicator f (z, y))
          = (s • B).indicator (fun y => (z : ℂ) ^ e * pmf m k y) := by
        ext y
        have hiff : (z, y) ∈ S ↔ y ∈ s • B := by
          rw [hS, Set.mem_setOf_eq, Set.mem_smul_set]
          constructor
          · rintro ⟨t, _, _, b, hb, h2, h3, h4⟩
            have : t = s := by
              have : (1 - t) * P = (1 - s) * P := by rw [← hzs]; exact h4.symm
              have := mul_right_cancel₀ hP.ne' this
              linarith
            subst this
            exact ⟨b, hb, Prod.ext h2.symm h3.symm⟩
          · rintro ⟨b, hb, rfl⟩
            exact ⟨s, hs0.le, hs1, b, hb, rfl, rfl, hzs⟩
        by_cases hy : (z, y) ∈ S
        · rw [Set.indicator_of_mem hy, Set.indicator_of_mem (hiff.1 hy)]
        · rw [Set.indicator_of_notMem hy, Set.indicator_of_notMem (fun h => hy (hiff.2 h))]
      rw [hslice, integral_indicator (hB.smul s).measurableSet, integral_const_mul]
      have := Measure.setIntegral_comp_smul_of_pos (volume : Measure (ℝ × ℝ)) (pmf m k) B hs0
      simp_rw [pmf_smul] at this
      rw [integral_const_mul] at this
      have hfr : Module.finrank ℝ (ℝ × ℝ) = 2 := by simp
      rw [hfr] at this
      have h3 : ∫ x in s • B, pmf m k x = (s : ℂ) ^ (m + 2 * k + 2) * pm B m k := by
        rw [pm, pow_add, mul_right_comm, this, Complex.real_smul]
        push_cast
        have : (s : ℂ) ≠ 0 := by exact_mod_cast hs0.ne'
        field_simp
      rw [h3]; push_cast; ring
    · rw [Set.indicator_of_notMem hz1]
      have : (fun y : ℝ × ℝ => S.indicator f (z, y)) = fun _ => 0 := by
        ext y
        apply Set.indicator_of_notMem
        rintro ⟨t, h0', h1, b, hb, h2, h3, h4⟩
        apply hz1
        simp only at h4
        refine ⟨lt_of_le_of_ne ?_ (Ne.symm h0), ?_⟩
        · rw [h4]; exact mul_nonneg (by linarith) hP.le
        · rw [h4]; nlinarith
      rw [this]; simp
  have hae : (fun z => ∫ y : ℝ × ℝ, S.indicator f (z, y)) =ᵐ[volume]
      (Set.Ioc (0 : ℝ) P).indicator (fun z => ((z ^ e * (1 - z / P) ^ (m + 2 * k + 2) : ℝ) : ℂ) * pm B m k) := by
    have h1 : ∀ᵐ z : ℝ, z ≠ P := by simp [ae_iff]
    have h2 : ∀ᵐ z : ℝ, z ≠ 0 := by simp [ae_iff]
    filter_upwards [h1, h2] with z hz1 hz2
    exact (key z hz1).resolve_right hz2
  rw [integral_congr_ae hae, integral_indicator measurableSet_Ioc, integral_mul_const, bint,
    intervalIntegral.integral_of_le hP.le, ← integral_complex_ofReal]

theorem coneOver_eq (P : ℝ) (B : Set (ℝ × ℝ)) :
    coneOver P B = {v : V3 | (v 2, (v 0, v 1)) ∈ {q : ℝ × (ℝ × ℝ) | ∃ s : ℝ, 0 ≤ s ∧ s ≤ 1 ∧
      ∃ b ∈ B, q.2.1 = s * b.1 ∧ q.2.2 = s * b.2 ∧ q.1 = (1 - s) * P}} := rfl

theorem cone_int (P : ℝ) (hP : 0 < P) (B : Set (ℝ × ℝ)) (hB : IsCompact B) (l m : ℕ) (hm : m ≤ l) :
    ∫ v in coneOver P B, solidS l m v
      = ∑ k ∈ range ((l - m) / 2 + 1), ((Nlm l m * rc l m k : ℝ) : ℂ) *
        (((bint P (l - m - 2 * k) (m + 2 * k + 2) : ℝ) : ℂ) * pm B m k) := by
  rw [coneOver_eq, solid_int_expand l m hm _ (coneOver_compact P B hB)]
  exact sum_congr rfl fun k _ => by rw [cone_term P hP B hB]

theorem bint_succ (P : ℝ) (hP : 0 < P) (e n : ℕ) :
    bint P (e + 1) n = (e + 1) * P / (n + 1) * bint P e (n + 1) := by
  -- integrate by parts
  have hd : ∀ z : ℝ, HasDerivAt (fun z : ℝ => z ^ (e + 1) * (1 - z / P) ^ (n + 1))
      ((e + 1) * (z ^ e * (1 - z / P) ^ (n + 1)) - (n + 1) / P * (z ^ (e + 1) * (1 - z / P) ^ n)) z := by
    intro z
    have h1 : HasDerivAt (fun z : ℝ => z ^ (e + 1)) ((e + 1 : ℕ) * z ^ e) z := by
      simpa using hasDerivAt_pow (e + 1) z
    have h2 : HasDerivAt (fun z : ℝ => 1 - z / P) (-(1 / P)) z := by
      simpa using ((hasDerivAt_id z).div_const P).const_sub 1
    have h3 := h2.pow (n + 1)
    refine (h1.mul h3).congr_deriv ?_
    simp only [Nat.add_sub_cancel]
    push_cast; simp; field_simp; ring
  have hI := intervalIntegral.integral_eq_sub_of_hasDerivAt (a := 0) (b := P) (fun z _ => hd z)
    (Continuous.intervalIntegrable (by fun_prop) _ _)
  rw [intervalIntegral.integral_sub (Continuous.intervalIntegrable (by fun_prop) _ _)
    (Continuous.intervalIntegrable (by fun_prop) _ _), intervalIntegral.integral_const_mul,
    intervalIntegral.integral_const_mul] at hI
  have : (1 : ℝ) - P / P = 0 := by field_simp; ring
  simp only [this, zero_pow (Nat.succ_ne_zero _), mul_zero, zero_mul, sub_zero] at hI
  rw [bint, bint]
  have hn : (n : ℝ) + 1 ≠ 0 := by positivity
  field_simp
  field_simp at hI
  linarith

theorem bint_zero (P : ℝ) (hP : 0 < P) (n : ℕ) : bint P 0 n = P / (n + 1) := by
  have hd : ∀ z : ℝ, HasDerivAt (fun z : ℝ => -(P / (n + 1)) * (1 - z / P) ^ (n + 1))
      (z ^ 0 * (1 - z / P) ^ n) z := by
    intro z
    have h2 : HasDerivAt (fun z : ℝ => 1 - z / P) (-(1 / P)) z := by
      simpa using ((hasDerivAt_id z).div_const P).const_sub 1
    have h3 := (h2.pow (n + 1)).const_mul (-(P / (n + 1)))
    refine h3.congr_deriv ?_
    simp only [Nat.add_sub_cancel]
    push_cast
    have hn : (n : ℝ) + 1 ≠ 0 := by positivity
    field_simp
  rw [bint, intervalIntegral.integral_eq_sub_of_hasDerivAt (fun z _ => hd z)
    (Continuous.intervalIntegrable (by fun_prop) _ _)]
  have : (1 : ℝ) - P / P = 0 := by field_simp; ring
  simp [this]

theorem bint_eq (P : ℝ) (hP : 0 < P) (e n : ℕ) :
    bint P e n = P ^ (e + 1) * (e.factorial * n.factorial / (e + n + 1).factorial) := by
  induction e generalizing n with
  | zero =>
    rw [bint_zero P hP, Nat.zero_add, Nat.factorial_succ]
    have := Nat.factorial_ne_zero
    push_cast; field_simp; simp
  | succ e ih =>
    rw [bint_succ P hP, ih, show e + (n + 1) + 1 = e + 1 + n + 1 by ring, Nat.factorial_succ e,
      Nat.factorial_succ n]
    have := Nat.factorial_ne_zero
    push_cast; field_simp; ring

theorem cone_vol (P : ℝ) (hP : 0 < P) (B : Set (ℝ × ℝ)) (hB : IsCompact B) :
    (volume (coneOver P B)).toReal = P / 3 * (volume B).toReal := by
  have h := cone_int P hP B hB 0 0 le_rfl
  simp only [Nat.cast_zero, solidS_zero_zero] at h
  have hN : (Nlm 0 0 : ℂ) ≠ 0 := by
    rw [Complex.ofReal_ne_zero, Nlm]
    apply ne_of_gt
    apply Real.sqrt_pos.2
    have := Real.pi_pos
    simp; positivity
  rw [setIntegral_const, ← Measure.real] at *
  simp only [Nat.sub_self, Nat.zero_div, zero_add, range_one, sum_singleton, rc, bint_zero P hP,
    pm_zero] at h
  simp only [Complex.real_smul] at h
  have h2 : (Nlm 0 0 : ℂ) * ((volume.real (coneOver P B) : ℝ) : ℂ)
      = (Nlm 0 0 : ℂ) * ((P / 3 * (volume B).toReal : ℝ) : ℂ) := by
    rw [mul_comm, h]; push_cast; norm_num
    try ring
  exact_mod_cast mul_left_cancel₀ hN h2

end Newt
