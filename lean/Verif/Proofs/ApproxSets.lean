import Verif.Proofs.Riemann
import Verif.Proofs.Planar
import Verif.Proofs.PlanarPolar
import Verif.Proofs.BodyFirst
import Mathlib.Analysis.Convex.Function
import Mathlib.Analysis.Convex.Mul
import Mathlib.Analysis.Normed.Module.Convex

/-!
# Convex pieces, azimuth ranges and the solids as sets of inequalities
-/

namespace Newt.Shp

open Spec MeasureTheory Filter Topology

/-- A linear form. -/
noncomputable def lin (p q r : ℝ) : V3 →ₗ[ℝ] ℝ :=
  p • LinearMap.proj 0 + q • LinearMap.proj 1 + r • LinearMap.proj 2

theorem lin_apply (p q r : ℝ) (v : V3) : lin p q r v = p * v 0 + q * v 1 + r * v 2 := by
  simp [lin]

theorem convex_half (p q r d : ℝ) : Convex ℝ {v : V3 | p * v 0 + q * v 1 + r * v 2 ≤ d} := by
  have h := convex_halfSpace_le (𝕜 := ℝ) (f := fun v : V3 => lin p q r v) (lin p q r).isLinear d
  simpa only [lin_apply] using h

theorem convex_half_lt (p q r d : ℝ) : Convex ℝ {v : V3 | p * v 0 + q * v 1 + r * v 2 < d} := by
  have h := convex_halfSpace_lt (𝕜 := ℝ) (f := fun v : V3 => lin p q r v) (lin p q r).isLinear d
  simpa only [lin_apply] using h

theorem convexOn_sq2 (p q r p' q' r' : ℝ) :
    ConvexOn ℝ Set.univ fun v : V3 => (p * v 0 + q * v 1 + r * v 2) ^ 2 + (p' * v 0 + q' * v 1 + r' * v 2) ^ 2 := by
  have h1 : ConvexOn ℝ Set.univ fun x : ℝ => x ^ 2 := Even.convexOn_pow (by norm_num)
  have a := h1.comp_linearMap (lin p q r)
  have b := h1.comp_linearMap (lin p' q' r')
  rw [Set.preimage_univ] at a b
  exact (a.add b).congr fun v _ => by simp [lin_apply]

theorem convex_sq2 (p q r p' q' r' d : ℝ) :
    Convex ℝ {v : V3 | (p * v 0 + q * v 1 + r * v 2) ^ 2 + (p' * v 0 + q' * v 1 + r' * v 2) ^ 2 ≤ d} := by
  simpa using (convexOn_sq2 p q r p' q' r').convex_le d

theorem convex_sq2_lt (p q r p' q' r' d : ℝ) :
    Convex ℝ {v : V3 | (p * v 0 + q * v 1 + r * v 2) ^ 2 + (p' * v 0 + q' * v 1 + r' * v 2) ^ 2 < d} := by
  simpa using (convexOn_sq2 p q r p' q' r').convex_lt d

theorem nf_half (p q r d : ℝ) : volume (frontier {v : V3 | p * v 0 + q * v 1 + r * v 2 ≤ d}) = 0 :=
  nf_convex (convex_half p q r d)

theorem nf_sq2 (p q r p' q' r' d : ℝ) :
    volume (frontier {v : V3 | (p * v 0 + q * v 1 + r * v 2) ^ 2 + (p' * v 0 + q' * v 1 + r' * v 2) ^ 2 ≤ d}) = 0 :=
  nf_convex (convex_sq2 p q r p' q' r' d)

/-- A horizontal disc. -/
theorem nf_disc (d : ℝ) : volume (frontier {v : V3 | v 0 ^ 2 + v 1 ^ 2 ≤ d}) = 0 := by
  simpa using nf_sq2 1 0 0 0 1 0 d

theorem nf_outside (d : ℝ) : volume (frontier {v : V3 | d ≤ v 0 ^ 2 + v 1 ^ 2}) = 0 := by
  have h := nf_compl (nf_convex (convex_sq2_lt 1 0 0 0 1 0 d))
  have e : {v : V3 | d ≤ v 0 ^ 2 + v 1 ^ 2} = {v : V3 | (1 * v 0 + 0 * v 1 + 0 * v 2) ^ 2 + (0 * v 0 + 1 * v 1 + 0 * v 2) ^ 2 < d}ᶜ := by
    ext v; simp
  rw [e]; exact h

theorem nf_abs (j : Fin 3) (d : ℝ) : volume (frontier {v : V3 | |v j| ≤ d}) = 0 := by
  refine nf_convex ?_
  have h := (convexOn_univ_norm (E := ℝ)).comp_linearMap (LinearMap.proj (R := ℝ) (φ := fun _ : Fin 3 => ℝ) j)
  simpa [Function.comp_def, Real.norm_eq_abs] using h.convex_le d

theorem nf_le (j : Fin 3) (d : ℝ) : volume (frontier {v : V3 | v j ≤ d}) = 0 := by
  refine nf_convex ?_
  exact convex_halfSpace_le (LinearMap.proj (R := ℝ) (φ := fun _ : Fin 3 => ℝ) j).isLinear d

theorem nf_ge (j : Fin 3) (d : ℝ) : volume (frontier {v : V3 | d ≤ v j}) = 0 := by
  refine nf_convex ?_
  exact convex_halfSpace_ge (LinearMap.proj (R := ℝ) (φ := fun _ : Fin 3 => ℝ) j).isLinear d

/-- The range of azimuths `|phi| <= beta`. -/
theorem nf_azimuth (beta : ℝ) : volume (frontier {v : V3 | |v 1| * Real.cos beta ≤ v 0 * Real.sin beta}) = 0 := by
  rcases le_total 0 (Real.cos beta) with hc | hc
  · refine nf_convex ?_
    have e : {v : V3 | |v 1| * Real.cos beta ≤ v 0 * Real.sin beta}
        = {v : V3 | -Real.sin beta * v 0 + Real.cos beta * v 1 + 0 * v 2 ≤ 0}
          ∩ {v : V3 | -Real.sin beta * v 0 + -Real.cos beta * v 1 + 0 * v 2 ≤ 0} := by
      ext v
      simp only [Set.mem_setOf_eq, Set.mem_inter_iff]
      constructor
      · intro h
        have := mul_le_mul_of_nonneg_right (le_abs_self (v 1)) hc
        have := mul_le_mul_of_nonneg_right (neg_abs_le (v 1)) hc
        constructor <;> linarith
      · rintro ⟨h1, h2⟩
        rcases abs_cases (v 1) with ⟨e, _⟩ | ⟨e, _⟩ <;> rw [e] <;> linarith
    rw [e]
    exact (convex_half _ _ _ _).inter (convex_half _ _ _ _)
  · have h2 := nf_compl (nf_convex ((convex_half_lt (Real.sin beta) (Real.cos beta) 0 0).inter
      (convex_half_lt (Real.sin beta) (-Real.cos beta) 0 0)))
    have e : {v : V3 | |v 1| * Real.cos beta ≤ v 0 * Real.sin beta}
        = ({v : V3 | Real.sin beta * v 0 + Real.cos beta * v 1 + 0 * v 2 < 0}
          ∩ {v : V3 | Real.sin beta * v 0 + -Real.cos beta * v 1 + 0 * v 2 < 0})ᶜ := by
      ext v
      simp only [Set.mem_setOf_eq, Set.mem_compl_iff, Set.mem_inter_iff]
      constructor
      · rintro h ⟨h1, h2⟩
        rcases abs_cases (v 1) with ⟨e, _⟩ | ⟨e, _⟩ <;> rw [e] at h <;> linarith
      · intro h
        by_contra hlt
        push Not at hlt
        apply h
        have := mul_le_mul_of_nonpos_right (le_abs_self (v 1)) hc
        have := mul_le_mul_of_nonpos_right (neg_abs_le (v 1)) hc
        constructor <;> linarith
    rw [e]; exact h2

theorem abs_sin_arctan2 (x y : ℝ) : Real.sqrt (x ^ 2 + y ^ 2) * Real.sin |arctan2 y x| = |y| := by
  have hpi := Real.pi_pos
  have h1 : arctan2 y x ≤ Real.pi := Complex.arg_le_pi _
  have h2 : -Real.pi < arctan2 y x := Complex.neg_pi_lt_arg _
  have hs : 0 ≤ Real.sin |arctan2 y x| :=
    Real.sin_nonneg_of_nonneg_of_le_pi (abs_nonneg _) (abs_le.2 ⟨h2.le, h1⟩)
  have hy := polar_y x y
  have : |y| = Real.sqrt (x ^ 2 + y ^ 2) * |Real.sin (arctan2 y x)| := by
    conv_lhs => rw [← hy, abs_mul, abs_of_nonneg (Real.sqrt_nonneg _)]
  rw [this]
  congr 1
  rcases abs_cases (arctan2 y x) with ⟨e, h⟩ | ⟨e, h⟩
  · rw [e] at hs ⊢; rw [abs_of_nonneg hs]
  · rw [e] at hs ⊢
    rw [Real.sin_neg] at hs ⊢
    rw [abs_of_nonpos (by linarith)]

/-- The azimuth condition as an inequality. -/
theorem azimuth_iff {beta : ℝ} (h0 : 0 < beta) (h1 : beta ≤ Real.pi) (x y : ℝ) :
    |arctan2 y x| ≤ beta ↔ |y| * Real.cos beta ≤ x * Real.sin beta := by
  have hpi := Real.pi_pos
  have ha1 : |arctan2 y x| ≤ Real.pi := abs_le.2 ⟨(Complex.neg_pi_lt_arg _).le, Complex.arg_le_pi _⟩
  have ha0 := abs_nonneg (arctan2 y x)
  set a := |arctan2 y x| with ha
  have hx : Real.sqrt (x ^ 2 + y ^ 2) * Real.cos a = x := by rw [ha, Real.cos_abs]; exact polar_x x y
  have hy : Real.sqrt (x ^ 2 + y ^ 2) * Real.sin a = |y| := abs_sin_arctan2 x y
  have e : |y| * Real.cos beta - x * Real.sin beta = Real.sqrt (x ^ 2 + y ^ 2) * Real.sin (a - beta) := by
    rw [Real.sin_sub, ← hy]
    nth_rw 2 [← hx]
    ring
  have hr := Real.sqrt_nonneg (x ^ 2 + y ^ 2)
  constructor
  · intro h
    have hs : Real.sin (a - beta) ≤ 0 := Real.sin_nonpos_of_nonpos_of_neg_pi_le (by linarith) (by linarith)
    nlinarith
  · intro h
    by_contra hlt
    push Not at hlt
    have hs : 0 < Real.sin (a - beta) := Real.sin_pos_of_pos_of_lt_pi (by linarith) (by linarith)
    have hr0 : Real.sqrt (x ^ 2 + y ^ 2) = 0 := by
      by_contra hne
      have : 0 < Real.sqrt (x ^ 2 + y ^ 2) := lt_of_le_of_ne hr (Ne.symm hne)
      nlinarith [mul_pos this hs]
    have hx0 : x = 0 := by rw [← hx, hr0, zero_mul]
    have hy0 : y = 0 := by
      have : |y| = 0 := by rw [← hy, hr0, zero_mul]
      exact abs_eq_zero.1 this
    have : a = 0 := by
      rw [ha, hx0, hy0, arctan2]
      have : (⟨0, 0⟩ : ℂ) = 0 := rfl
      rw [this, Complex.arg_zero, abs_zero]
    linarith

/-- An annular sector about the x axis as a set of inequalities. -/
theorem mem_sector_iff {Ri Ro beta : ℝ} (hR : 0 ≤ Ri) (h0 : 0 < beta) (h1 : beta ≤ Real.pi) (x y : ℝ) (hRo : 0 ≤ Ro) :
    (x, y) ∈ sector Ri Ro 0 beta ↔ Ri ^ 2 ≤ x ^ 2 + y ^ 2 ∧ x ^ 2 + y ^ 2 ≤ Ro ^ 2 ∧
      |y| * Real.cos beta ≤ x * Real.sin beta := by
  constructor
  · rintro ⟨r, phi, hr1, hr2, hp1, hp2, hx, hy⟩
    simp only at hx hy
    have hr0 : 0 ≤ r := hR.trans hr1
    have hsq : x ^ 2 + y ^ 2 = r ^ 2 := by
      rw [hx, hy]; nlinarith [Real.sin_sq_add_cos_sq phi]
    refine ⟨by rw [hsq]; nlinarith, by rw [hsq]; nlinarith, ?_⟩
    have hle : |phi| ≤ beta := abs_le.2 ⟨by linarith, by linarith⟩
    have hsin : |Real.sin phi| = Real.sin |phi| := by
      rcases abs_cases phi with ⟨e, h⟩ | ⟨e, h⟩
      · rw [e, abs_of_nonneg (Real.sin_nonneg_of_nonneg_of_le_pi h (by linarith))]
      · rw [e, Real.sin_neg, abs_of_nonpos (Real.sin_nonpos_of_nonpos_of_neg_pi_le h.le (by linarith))]
    have hs : Real.sin (|phi| - beta) ≤ 0 :=
      Real.sin_nonpos_of_nonpos_of_neg_pi_le (by linarith) (by linarith [abs_nonneg phi])
    rw [Real.sin_sub, Real.cos_abs] at hs
    rw [hx, hy, abs_mul, abs_of_nonneg hr0, hsin]
    nlinarith
  · rintro ⟨g1, g2, g3⟩
    have ha := (azimuth_iff h0 h1 x y).2 g3
    have hs := Real.sq_sqrt (show 0 ≤ x ^ 2 + y ^ 2 by positivity)
    refine ⟨Real.sqrt (x ^ 2 + y ^ 2), arctan2 y x, Real.le_sqrt_of_sq_le g1, ?_, ?_, ?_, (polar_x x y).symm,
      (polar_y x y).symm⟩
    · exact Real.sqrt_le_iff.2 ⟨hRo, g2⟩
    · linarith [(abs_le.1 ha).1]
    · linarith [(abs_le.1 ha).2]

/-- The bounding box the sector generators use. -/
theorem sector_box {r1 r2 beta x y : ℝ} (h1 : 0 ≤ r1) (hb0 : 0 < beta) (hb1 : beta ≤ Real.pi)
    (h : (x, y) ∈ sector r1 r2 0 beta) :
    (if beta < Real.pi / 2 then Real.cos beta * r1 else Real.cos beta * r2) ≤ x ∧ x ≤ r2 ∧
      |y| ≤ (if beta < Real.pi / 2 then Real.sin beta * r2 else r2) := by
  obtain ⟨r, phi, hr1, hr2, hp1, hp2, hx, hy⟩ := h
  simp only at hx hy
  have hr0 : 0 ≤ r := h1.trans hr1
  have hle : |phi| ≤ beta := abs_le.2 ⟨by linarith, by linarith⟩
  have hcos : Real.cos beta ≤ Real.cos phi := by
    rw [← Real.cos_abs phi]
    exact Real.cos_le_cos_of_nonneg_of_le_pi (abs_nonneg _) hb1 hle
  have hc1 := Real.cos_le_one phi
  have hx2 : x ≤ r2 := by rw [hx]; nlinarith
  have hxb : r * Real.cos beta ≤ x := by rw [hx]; exact mul_le_mul_of_nonneg_left hcos hr0
  have hyy : |y| = r * |Real.sin phi| := by rw [hy, abs_mul, abs_of_nonneg hr0]
  split_ifs with hb
  · have hcb : 0 ≤ Real.cos beta := Real.cos_nonneg_of_neg_pi_div_two_le_of_le (by linarith) hb.le
    refine ⟨by nlinarith, hx2, ?_⟩
    have hs : |Real.sin phi| ≤ Real.sin beta := by
      have h1 : |Real.sin phi| ≤ Real.sin |phi| := by
        rcases abs_cases phi with ⟨e, h⟩ | ⟨e, h⟩
        · rw [e, abs_of_nonneg (Real.sin_nonneg_of_nonneg_of_le_pi h (by linarith))]
        · rw [e, Real.sin_neg, abs_of_nonpos (Real.sin_nonpos_of_nonpos_of_neg_pi_le h.le (by linarith))]
      exact h1.trans (Real.sin_le_sin_of_le_of_le_pi_div_two (by linarith [abs_nonneg phi]) hb.le hle)
    rw [hyy]
    have := abs_nonneg (Real.sin phi)
    nlinarith
  · have hcb : Real.cos beta ≤ 0 := Real.cos_nonpos_of_pi_div_two_le_of_le (by linarith) (by linarith)
    refine ⟨by nlinarith, hx2, ?_⟩
    rw [hyy]
    nlinarith [Real.abs_sin_le_one phi, abs_nonneg (Real.sin phi)]

/-- The horizontal position as a complex number. -/
noncomputable def toC : V3 →ₗ[ℝ] ℂ where
  toFun v := ⟨v 0, v 1⟩
  map_add' u v := by apply Complex.ext <;> simp
  map_smul' a v := by apply Complex.ext <;> simp

theorem nf_cone (k m : ℝ) : volume (frontier {v : V3 | Real.sqrt (v 0 ^ 2 + v 1 ^ 2) ≤ k - m * v 2}) = 0 := by
  refine nf_convex ?_
  have h := ((convexOn_univ_norm (E := ℂ)).comp_linearMap toC).add
    ((lin 0 0 m).convexOn (s := Set.univ) convex_univ)
  have h2 := h.convex_le k
  have e : {v : V3 | Real.sqrt (v 0 ^ 2 + v 1 ^ 2) ≤ k - m * v 2}
      = {x | x ∈ (toC ⁻¹' Set.univ) ∧ ((norm ∘ toC) + (lin 0 0 m)) x ≤ k} := by
    ext v
    have hn : ‖toC v‖ = Real.sqrt (v 0 ^ 2 + v 1 ^ 2) := by
      rw [Complex.norm_def, Complex.normSq_apply]; congr 1; simp [toC]; ring
    simp only [Set.mem_setOf_eq, Set.preimage_univ, Set.mem_univ, true_and, Pi.add_apply, Function.comp_apply, hn,
      lin_apply]
    constructor <;> intro h <;> linarith
  rw [e]; exact h2

theorem vol_ne_of_open {S U : Set V3} (hU : IsOpen U) (hne : U.Nonempty) (h : U ⊆ S) : volume S ≠ 0 := by
  have := hU.measure_pos volume hne
  exact (lt_of_lt_of_le this (measure_mono h)).ne'

theorem compact_of_box {S : Set V3} (hS : IsClosed S) (W c : Fin 3 → ℝ) (h : ∀ v ∈ S, ∀ j, |v j - c j| ≤ W j / 2) :
    IsCompact S := by
  refine IsCompact.of_isClosed_subset (isCompact_univ_pi fun j => isCompact_Icc (a := c j - W j / 2) (b := c j + W j / 2)) hS ?_
  intro v hv j _
  have := abs_le.1 (h v hv j)
  constructor <;> linarith [this.1, this.2]

end Newt.Shp
