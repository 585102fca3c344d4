import Verif.Spec.Mpc
import Verif.Props.Qlm
import Verif.Props.Shapes
import Verif.Proofs.BodyFirst

/-! # Volumes of the solids of `.mpc` files, and matter of given density filling them -/

namespace Newt

open MeasureTheory Finset Spec Qlm

/-! ## Areas and volumes -/

theorem area_of_pm {B : Set (ℝ × ℝ)} {a : ℝ} (h : pm B 0 0 = (a : ℂ)) : (volume B).toReal = a := by
  rw [pm_zero] at h; exact_mod_cast h

theorem area_sector (Ri Ro phic phih : ℝ) (hRi : 0 ≤ Ri) (hRo : Ri ≤ Ro) (h0 : 0 ≤ phih) (hh : phih ≤ Real.pi) :
    (volume (sector Ri Ro phic phih)).toReal = phih * (Ro ^ 2 - Ri ^ 2) := by
  apply area_of_pm
  rw [pm_sector Ri Ro phic phih hRi hRo h0 hh]
  simp [phase, sinc]; ring

theorem area_disc (R : ℝ) (hR : 0 ≤ R) : (volume (disc R)).toReal = Real.pi * R ^ 2 := by
  rw [disc_sector R hR, area_sector 0 R 0 Real.pi le_rfl hR Real.pi_pos.le le_rfl]; ring

theorem area_rect (a b : ℝ) (ha : 0 < a) (hb : 0 < b) : (volume (rectangle a b)).toReal = a * b := by
  rw [rectangle_eq, Measure.volume_eq_prod, Measure.prod_prod, ENNReal.toReal_mul, Real.volume_Icc, Real.volume_Icc,
    ENNReal.toReal_ofReal (by linarith), ENNReal.toReal_ofReal (by linarith)]
  ring

theorem area_right (x y : ℝ) (hx : 0 < x) (hy : 0 < y) : (volume (triangle (x, 0) (0, y))).toReal = x * y / 2 := by
  apply area_of_pm
  rw [pm_right x y hx hy]
  simp [tetPsum, Nat.factorial, gl1]

theorem area_tri_le (d y1 y2 : ℝ) (hd : 0 < d) (hy : y1 ≤ y2) :
    (volume (triangle (d, y1) (d, y2))).toReal = d * (y2 - y1) / 2 := by
  apply area_of_pm
  rw [pm_triangle_pos d y1 y2 hd hy]
  simp [tint, pmf]; ring

theorem area_tri (d y1 y2 : ℝ) (hd : 0 < d) : (volume (triangle (d, y1) (d, y2))).toReal = d * |y2 - y1| / 2 := by
  rcases le_total y1 y2 with h | h
  · rw [area_tri_le d y1 y2 hd h, abs_of_nonneg (by linarith)]
  · rw [triangle_swap, area_tri_le d y2 y1 hd h, abs_of_nonpos (by linarith)]; ring

theorem ball_volume (R : ℝ) (hR : 0 ≤ R) : (volume (Spec.ball R)).toReal = 4 / 3 * Real.pi * R ^ 3 := by
  have h : Spec.ball R = (WithLp.toLp 2 : V3 → EuclideanSpace ℝ (Fin 3)) ⁻¹' Metric.closedBall 0 R := by
    ext v
    simp only [Spec.ball, Set.mem_setOf_eq, Set.mem_preimage, Metric.mem_closedBall, dist_zero_right,
      EuclideanSpace.norm_eq, modulus, Fin.sum_univ_three, Real.norm_eq_abs, sq_abs]
  rw [h, (PiLp.volume_preserving_toLp (Fin 3)).measure_preimage Metric.isClosed_closedBall.measurableSet.nullMeasurableSet,
    EuclideanSpace.volume_closedBall_fin_three, ENNReal.toReal_mul, ENNReal.toReal_pow, ENNReal.toReal_ofReal hR,
    ENNReal.toReal_ofReal (by have := Real.pi_pos; positivity)]
  ring

/-! ## Filled bodies -/

theorem inner_filled (rho : ℝ) (S : Set V3) (hS : IsCompact S) (l : ℕ) (m : ℤ) :
    (Body.filled rho S hS).inner l m = (rho : ℂ) * ∫ v in S, solidS l m v := by
  simp [Body.inner, Body.filled]

theorem uniform_filled (rho mass : ℝ) (S : Set V3) (hS : IsCompact S) (hv : (volume S).toReal ≠ 0)
    (h : mass = rho * (volume S).toReal) : uniformMoment mass S = (Body.filled rho S hS).inner := by
  funext l m
  rw [inner_filled, uniformMoment, h, mul_div_cancel_right₀ _ hv]

/-- Moving a filled region by a volume-preserving map. -/
theorem inner_move (rho : ℝ) (S T : Set V3) (hS : IsCompact S) (hT : IsCompact T) (f : V3 → V3) (hf : Continuous f)
    (e : V3 ≃ᵐ V3) (he : ∀ v, e v = f v) (mp : MeasurePreserving e volume volume) (hST : f '' S = T) (l : ℕ) (m : ℤ) :
    Body.inner ((Body.filled rho S hS).map fun p => p.move f hf) l m = (Body.filled rho T hT).inner l m := by
  have hfe : f '' S = e '' S := Set.image_congr fun v _ => (he v).symm
  rw [inner_filled, ← hST, hfe, mp.setIntegral_image_emb e.measurableEmbedding]
  simp only [Body.filled, List.map_cons, List.map_nil, Body.inner, List.sum_cons, List.sum_nil, add_zero]
  rw [Piece.integral_move _ _ _ _ (continuous_solidS l m)]
  simp only [Piece.move, he]

theorem inner_filled_translate (rho : ℝ) (S T : Set V3) (hS : IsCompact S) (hT : IsCompact T) (d : V3)
    (hST : (fun v => v + d) '' S = T) (l : ℕ) (m : ℤ) :
    ((Body.filled rho S hS).translate d).inner l m = (Body.filled rho T hT).inner l m :=
  inner_move rho S T hS hT _ _ (MeasurableEquiv.addRight d) (fun _ => rfl) (measurePreserving_add_right volume d) hST l m

theorem inner_filled_turn (rho t : ℝ) (S T : Set V3) (hS : IsCompact S) (hT : IsCompact T)
    (hST : turnZ t '' S = T) (l : ℕ) (m : ℤ) :
    ((Body.filled rho S hS).rotate 0 0 t).inner l m = (Body.filled rho T hT).inner l m := by
  have he : ∀ v, euler 0 0 t v = turnZ t v := fun v => by
    funext i; fin_cases i <;> simp [euler, turnZ, turnY]
  refine inner_move rho S T hS hT _ _ (rzE t) (fun v => ?_) (rz_mp t) ?_ l m
  · rw [he, turnZ_eq]; rfl
  · rw [← hST]; exact Set.image_congr fun v _ => he v

/-- Cutting a region along the plane `x = c`. -/
theorem inner_cut (rho c : ℝ) (S A B : Set V3) (hS : IsCompact S) (hA : IsCompact A) (hB : IsCompact B)
    (h : S = A ∪ B) (h1 : ∀ v ∈ A, v 0 ≤ c) (h2 : ∀ v ∈ B, c ≤ v 0) (l : ℕ) (m : ℤ) :
    (Body.filled rho S hS).inner l m = (Body.filled rho A hA).inner l m + (Body.filled rho B hB).inner l m := by
  rw [inner_filled, inner_filled, inner_filled, ← mul_add, h, setIntegral_union₀]
  · have h0 : volume {v : V3 | v 0 = c} = 0 := Measure.pi_hyperplane (fun _ : Fin 3 => (volume : Measure ℝ)) 0 c
    refine measure_mono_null (fun v hv => ?_) h0
    exact le_antisymm (h1 v hv.1) (h2 v hv.2)
  · exact hB.measurableSet.nullMeasurableSet
  · exact (continuous_solidS l m).continuousOn.integrableOn_compact hA
  · exact (continuous_solidS l m).continuousOn.integrableOn_compact hB

/-! ## Trapezoids -/

theorem mem_iso (d w x y : ℝ) (hd : 0 < d) (hw : 0 ≤ w) :
    (x, y) ∈ triangle (d, -(w / 2)) (d, w / 2) ↔ 0 ≤ x ∧ x ≤ d ∧ |y| ≤ w * (x / d) / 2 := by
  rw [mem_triangle d _ _ hd (by linarith)]
  constructor
  · rintro ⟨s, h1, h2, rfl, h4, h5⟩
    refine ⟨by positivity, by nlinarith, ?_⟩
    rw [mul_div_cancel_right₀ _ hd.ne', abs_le]
    constructor <;> linarith
  · rintro ⟨h1, h2, h3⟩
    rw [abs_le] at h3
    refine ⟨x / d, by positivity, (div_le_one hd).2 h2, by field_simp, ?_, ?_⟩ <;> linarith [h3.1, h3.2]

theorem trapezoid_compact (w1 w2 h : ℝ) (hh : 0 < h) : IsCompact (trapezoid w1 w2 h) := by
  refine IsCompact.of_isClosed_subset ((isCompact_Icc (a := (0 : ℝ)) (b := h)).prod
      (isCompact_Icc (a := -(|w1| + |w2|)) (b := |w1| + |w2|))) ?_ ?_
  · refine IsClosed.inter (isClosed_le continuous_const continuous_fst) ?_
    refine IsClosed.inter (isClosed_le continuous_fst continuous_const) ?_
    exact isClosed_le (f := fun p : ℝ × ℝ => |p.2|) (g := fun p : ℝ × ℝ => (w1 + (w2 - w1) * (p.1 / h)) / 2)
      (by fun_prop) (by fun_prop)
  · rintro ⟨x, y⟩ ⟨h1, h2, h3⟩
    simp only at h1 h2 h3
    refine ⟨⟨h1, h2⟩, ?_⟩
    simp only [Set.mem_Icc]
    rw [← abs_le]
    refine h3.trans ?_
    have e1 : 0 ≤ x / h := by positivity
    have e2 : x / h ≤ 1 := (div_le_one hh).2 h2
    have e3 := le_abs_self w1
    have e4 := le_abs_self w2
    have e5 := abs_nonneg w1
    have e6 := abs_nonneg w2
    nlinarith

theorem segment_compact (r d : ℝ) (hr : 0 ≤ r) : IsCompact (segment r d) := by
  have : segment r d = disc r ∩ {p | d ≤ p.1} := by ext p; simp [Spec.segment, disc, and_comm]
  rw [this]
  exact (disc_compact r hr).inter_right (isClosed_le continuous_const continuous_fst)

/-- The big triangle is the small one and the trapezoid shifted by `hs`. -/
theorem iso_split (w3 w4 h t : ℝ) (h1 : 0 < w3) (h2 : w3 < w4) (hh : 0 < h) :
    prism t (triangle (h + w3 * h / (w4 - w3), -(w4 / 2)) (h + w3 * h / (w4 - w3), w4 / 2))
      = prism t (triangle (w3 * h / (w4 - w3), -(w3 / 2)) (w3 * h / (w4 - w3), w3 / 2))
        ∪ (fun v => v + ![w3 * h / (w4 - w3), 0, 0]) '' prism t (trapezoid w3 w4 h) := by
  have hd : 0 < w4 - w3 := by linarith
  set hs := w3 * h / (w4 - w3) with hhs
  have hs0 : 0 < hs := by positivity
  have e : hs * (w4 - w3) = w3 * h := by rw [hhs]; field_simp
  have eb : h + hs = w4 * h / (w4 - w3) := by rw [hhs]; field_simp; ring
  have k1 : ∀ x : ℝ, w4 * (x / (h + hs)) / 2 = x * (w4 - w3) / h / 2 := by
    intro x; rw [eb]; have : w4 ≠ 0 := by linarith
    field_simp
  have k2 : ∀ x : ℝ, w3 * (x / hs) / 2 = x * (w4 - w3) / h / 2 := by
    intro x; rw [hhs]; field_simp
  have k3 : ∀ x : ℝ, (w3 + (w4 - w3) * ((x - hs) / h)) / 2 = x * (w4 - w3) / h / 2 := by
    intro x
    have : hs * (w4 - w3) / h = w3 := by rw [e]; field_simp
    have : (w4 - w3) * ((x - hs) / h) = x * (w4 - w3) / h - hs * (w4 - w3) / h := by ring
    rw [this]; linarith
  ext v
  simp only [Set.mem_union, Set.mem_image, prism, Set.mem_setOf_eq]
  rw [mem_iso _ _ _ _ (by linarith) (by linarith), mem_iso _ _ _ _ hs0 h1.le, k1, k2]
  constructor
  · rintro ⟨a, b, c, d, f⟩
    rcases le_total (v 0) hs with g | g
    · exact Or.inl ⟨a, b, c, g, f⟩
    · refine Or.inr ⟨v - ![hs, 0, 0], ⟨by simpa using a, by simpa using b, ?_⟩, by simp only [sub_add_cancel]⟩
      refine ⟨by simpa using g, by simp; linarith, ?_⟩
      simp only [Pi.sub_apply, Matrix.cons_val_zero, Matrix.cons_val_one, sub_zero]
      rw [k3]; exact f
  · rintro (⟨a, b, c, d, f⟩ | ⟨w, ⟨a, b, c, d, f⟩, rfl⟩)
    · exact ⟨a, b, c, by linarith, f⟩
    · simp only at c d f
      refine ⟨by simpa using a, by simpa using b, by simp; linarith, by simp; linarith, ?_⟩
      simp only [Pi.add_apply, Matrix.cons_val_zero, Matrix.cons_val_one, add_zero]
      rw [← k3, add_sub_cancel_right]; exact f

theorem trapezoid_flip (w1 w2 h t : ℝ) (hh : 0 < h) :
    turnZ Real.pi '' ((fun v => v + ![-h, 0, 0]) '' prism t (trapezoid w1 w2 h)) = prism t (trapezoid w2 w1 h) := by
  have key : ∀ x : ℝ, (w2 + (w1 - w2) * ((h - x) / h)) / 2 = (w1 + (w2 - w1) * (x / h)) / 2 := by
    intro x; rw [sub_div, div_self hh.ne']; ring
  ext v
  constructor
  · rintro ⟨_, ⟨w, ⟨a, b, c, d, f⟩, rfl⟩, rfl⟩
    simp only at c d f
    refine ⟨by simpa [turnZ] using a, by simpa [turnZ] using b, by simp [turnZ]; linarith, by simp [turnZ]; linarith, ?_⟩
    simp only [turnZ, Pi.add_apply, Matrix.cons_val_zero, Matrix.cons_val_one, Real.cos_pi, Real.sin_pi, add_zero]
    rw [show (w 0 + -h) * -1 - w 1 * 0 = h - w 0 by ring, key,
      show (w 0 + -h) * 0 + w 1 * -1 = -w 1 by ring, abs_neg]
    exact f
  · rintro ⟨a, b, c, d, f⟩
    simp only at c d f
    refine ⟨![-v 0, -v 1, v 2], ⟨![h - v 0, -v 1, v 2], ⟨by simpa using a, by simpa using b, ?_⟩, ?_⟩, ?_⟩
    · refine ⟨by simp; linarith, by simp; linarith, ?_⟩
      simp only [Matrix.cons_val_zero, Matrix.cons_val_one, abs_neg]
      refine f.trans (le_of_eq ?_)
      rw [sub_div, div_self hh.ne']; ring
    · funext i; fin_cases i <;> simp; ring
    · funext i; fin_cases i <;> simp [turnZ]

/-! ## Part of a cylinder -/

theorem mem_sector_acute (r p x y : ℝ) (hr : 0 < r) (hp0 : 0 < p) (hp : p < Real.pi / 2) :
    (x, y) ∈ sector 0 r 0 p ↔ x ^ 2 + y ^ 2 ≤ r ^ 2 ∧ 0 ≤ x ∧ |y| * Real.cos p ≤ x * Real.sin p := by
  have hpi := Real.pi_pos
  constructor
  · rintro ⟨s, f, h1, h2, h3, h4, h5, h6⟩
    simp only at h5 h6
    subst h5 h6
    refine ⟨?_, ?_, ?_⟩
    · have : (s * Real.cos f) ^ 2 + (s * Real.sin f) ^ 2 = s ^ 2 := by
        linear_combination s ^ 2 * Real.sin_sq_add_cos_sq f
      rw [this]; gcongr
    · exact mul_nonneg h1 (Real.cos_nonneg_of_neg_pi_div_two_le_of_le (by linarith) (by linarith))
    · have a1 : 0 ≤ Real.sin (p - f) := Real.sin_nonneg_of_nonneg_of_le_pi (by linarith) (by linarith)
      have a2 : 0 ≤ Real.sin (p + f) := Real.sin_nonneg_of_nonneg_of_le_pi (by linarith) (by linarith)
      rw [Real.sin_sub] at a1
      rw [Real.sin_add] at a2
      rw [abs_mul, abs_of_nonneg h1]
      rcases abs_cases (Real.sin f) with ⟨e, _⟩ | ⟨e, _⟩ <;> rw [e] <;> nlinarith
  · rintro ⟨h1, h2, h3⟩
    have hd : (x, y) ∈ disc r := h1
    rw [disc_sector r hr.le] at hd
    obtain ⟨s, f, g1, g2, g3, g4, g5, g6⟩ := hd
    simp only at g5 g6
    rcases g1.eq_or_lt with rfl | hs
    · refine ⟨0, 0, le_rfl, hr.le, by linarith, by linarith, by simpa using g5, by simpa using g6⟩
    · have hc : 0 ≤ Real.cos f := by
        by_contra hc
        push Not at hc
        have : s * Real.cos f < 0 := mul_neg_of_pos_of_neg hs hc
        rw [← g5] at this; linarith
      have hab : |Real.sin f| * Real.cos p ≤ Real.cos f * Real.sin p := by
        rw [g6, g5, abs_mul, abs_of_pos hs] at h3
        have : s * (|Real.sin f| * Real.cos p) ≤ s * (Real.cos f * Real.sin p) := by linarith
        exact le_of_mul_le_mul_left this hs
      have hsin : ∀ t : ℝ, 0 ≤ t → t ≤ Real.pi → |Real.sin t| * Real.cos p ≤ Real.cos t * Real.sin p → t ≤ p := by
        intro t ht0 ht1 ht
        by_contra hlt
        push Not at hlt
        rw [abs_of_nonneg (Real.sin_nonneg_of_nonneg_of_le_pi ht0 ht1)] at ht
        have : 0 < Real.sin (t - p) := Real.sin_pos_of_pos_of_lt_pi (by linarith) (by linarith)
        rw [Real.sin_sub] at this; linarith
      refine ⟨s, f, g1, g2, ?_, ?_, g5, g6⟩
      · rcases le_total 0 f with h0 | h0
        · linarith
        · have := hsin (-f) (by linarith) (by linarith) (by simpa using hab)
          linarith
      · rcases le_total 0 f with h0 | h0
        · have := hsin f h0 (by linarith) hab
          linarith
        · linarith

theorem sector_split (r d h : ℝ) (hd : 0 < d) (hr : d < r) :
    prism h (sector 0 r 0 (Real.arccos (d / r)))
      = prism h (triangle (r * Real.cos (0 - Real.arccos (d / r)), r * Real.sin (0 - Real.arccos (d / r)))
          (r * Real.cos (0 + Real.arccos (d / r)), r * Real.sin (0 + Real.arccos (d / r))))
        ∪ prism h (segment r d) := by
  have hr0 : 0 < r := by linarith
  set p := Real.arccos (d / r) with hp
  have hq1 : d / r < 1 := (div_lt_one hr0).2 hr
  have hq0 : 0 < d / r := by positivity
  have hc : Real.cos p = d / r := Real.cos_arccos (by linarith) hq1.le
  have hp0 : 0 < p := Real.arccos_pos.2 hq1
  have hp2 : p < Real.pi / 2 := Real.arccos_lt_pi_div_two.2 hq0
  have hs : 0 < Real.sin p := Real.sin_pos_of_pos_of_lt_pi hp0 (by linarith [Real.pi_pos])
  have hrc : r * Real.cos p = d := by rw [hc]; field_simp
  have hw : d ^ 2 + (r * Real.sin p) ^ 2 = r ^ 2 := by
    rw [← hrc]; linear_combination r ^ 2 * Real.sin_sq_add_cos_sq p
  set w := r * Real.sin p with hw'
  have hw0 : 0 < w := by positivity
  have hT : triangle (r * Real.cos (0 - p), r * Real.sin (0 - p)) (r * Real.cos (0 + p), r * Real.sin (0 + p))
      = triangle (d, -(2 * w / 2)) (d, 2 * w / 2) := by
    rw [zero_sub, zero_add, Real.cos_neg, Real.sin_neg, hrc]
    congr 2 <;> rw [hw'] <;> ring
  have key : ∀ x y : ℝ, |y| * Real.cos p ≤ x * Real.sin p ↔ |y| ≤ 2 * w * (x / d) / 2 := by
    intro x y
    rw [show 2 * w * (x / d) / 2 = w * x / d by ring, le_div_iff₀ hd, ← hrc, hw']
    constructor
    · intro a; nlinarith
    · intro a
      have : r * (|y| * Real.cos p) ≤ r * (x * Real.sin p) := by linarith
      exact le_of_mul_le_mul_left this hr0
  ext v
  simp only [Set.mem_union, prism, Set.mem_setOf_eq]
  rw [hT, mem_iso _ _ _ _ hd (by positivity), mem_sector_acute r p _ _ hr0 hp0 hp2, key]
  simp only [Spec.segment, Set.mem_setOf_eq]
  have e1 : ∀ x : ℝ, 2 * w * (x / d) / 2 = w * x / d := fun x => by ring
  constructor
  · rintro ⟨a, b, c1, c2, c3⟩
    rcases le_total (v 0) d with g | g
    · exact Or.inl ⟨a, b, c2, g, c3⟩
    · exact Or.inr ⟨a, b, g, c1⟩
  · rintro (⟨a, b, c1, c2, c3⟩ | ⟨a, b, c1, c2⟩)
    · refine ⟨a, b, ?_, c1, c3⟩
      rw [e1, le_div_iff₀ hd] at c3
      have h4 : (v 1 * d) ^ 2 ≤ (w * v 0) ^ 2 := by
        rw [← sq_abs (v 1 * d), abs_mul, abs_of_pos hd]
        gcongr
      have h5 : (v 0) ^ 2 ≤ d ^ 2 := by gcongr
      have h6 : d ^ 2 * (v 0 ^ 2 + v 1 ^ 2) ≤ d ^ 2 * r ^ 2 := by nlinarith
      exact le_of_mul_le_mul_left h6 (by positivity)
    · refine ⟨a, b, c2, by linarith, ?_⟩
      rw [e1, le_div_iff₀ hd]
      have h4 : (v 1) ^ 2 ≤ w ^ 2 := by nlinarith
      have h5 : |v 1| ≤ w := abs_le_of_sq_le_sq h4 hw0.le
      nlinarith

namespace Multi

theorem rotated_zero (B : Set (ℝ × ℝ)) : rotated 0 B = B := by
  ext p
  constructor
  · rintro ⟨b, hb, h1, h2⟩
    have : p = b := by ext <;> simp_all
    rwa [this]
  · intro hp; exact ⟨p, hp, by simp, by simp⟩

end Multi

/-- As `inner_filled_turn`, the turn being the first Euler angle. -/
theorem inner_filled_turn' (rho t : ℝ) (S T : Set V3) (hS : IsCompact S) (hT : IsCompact T)
    (hST : turnZ t '' S = T) (l : ℕ) (m : ℤ) :
    ((Body.filled rho S hS).rotate t 0 0).inner l m = (Body.filled rho T hT).inner l m := by
  have he : ∀ v, euler t 0 0 v = turnZ t v := fun v => by
    funext i; fin_cases i <;> simp [euler, turnZ, turnY]
  refine inner_move rho S T hS hT _ _ (rzE t) (fun v => ?_) (rz_mp t) ?_ l m
  · rw [he, turnZ_eq]; rfl
  · rw [← hST]; exact Set.image_congr fun v _ => he v

theorem turnZ_inv (t : ℝ) (v : V3) : turnZ t (turnZ (-t) v) = v := by
  have h := Real.cos_sq_add_sin_sq t
  funext i
  fin_cases i <;> simp [turnZ]
  · linear_combination v 0 * h
  · linear_combination v 1 * h

theorem turnZ_back (t : ℝ) (S : Set V3) : turnZ (-t) '' (turnZ t '' S) = S := by
  rw [← Set.image_comp]
  conv_rhs => rw [← Set.image_id S]
  refine Set.image_congr fun v _ => ?_
  have := turnZ_inv (-t) v
  rwa [neg_neg] at this

theorem turn_steinmetz (r R : ℝ) : turnZ (Real.pi / 2) '' steinmetz r R = drilledYCylinder r R := by
  ext v
  constructor
  · rintro ⟨w, ⟨h1, h2⟩, rfl⟩
    simp only [drilledYCylinder, turnZ, Real.cos_pi_div_two, Real.sin_pi_div_two, Set.mem_setOf_eq, Matrix.cons_val]
    exact ⟨by nlinarith, by nlinarith⟩
  · rintro ⟨h1, h2⟩
    refine ⟨turnZ (-(Real.pi / 2)) v, ⟨?_, ?_⟩, turnZ_inv _ _⟩ <;>
    simp only [turnZ, Real.cos_neg, Real.sin_neg, Real.cos_pi_div_two, Real.sin_pi_div_two, Matrix.cons_val] <;> nlinarith

theorem compact_of_bound (S : Set V3) (hS : IsClosed S) (R : ℝ) (h : ∀ v ∈ S, ∀ i, |v i| ≤ R) : IsCompact S := by
  refine IsCompact.of_isClosed_subset
    (isCompact_univ_pi (s := fun _ : Fin 3 => Set.Icc (-R) R) fun _ => isCompact_Icc) hS ?_
  intro v hv i _
  exact abs_le.1 (h v hv i)

theorem ycyl_compact (r R : ℝ) (hr : 0 ≤ r) (hR : r ≤ R) : IsCompact (drilledYCylinder r R) := by
  refine compact_of_bound _ ?_ R ?_
  · have h1 : IsClosed {v : V3 | v 0 ^ 2 + v 1 ^ 2 ≤ r ^ 2} := isClosed_le (by fun_prop) (by fun_prop)
    have h2 : IsClosed {v : V3 | v 0 ^ 2 + v 2 ^ 2 ≤ R ^ 2} := isClosed_le (by fun_prop) (by fun_prop)
    exact h1.inter h2
  · rintro v ⟨h1, h2⟩ i
    apply abs_le_of_sq_le_sq _ (by linarith)
    fin_cases i
    · simp; nlinarith [sq_nonneg (v 2)]
    · simp; nlinarith [sq_nonneg (v 0)]
    · simp; nlinarith [sq_nonneg (v 0)]

theorem slab_compact (t r theta : ℝ) (ht : 0 ≤ t) (hr : 0 ≤ r) (hc : 0 < Real.cos theta) :
    IsCompact (drilledSlab t r theta) := by
  refine compact_of_bound _ ?_ ((r + t / 2) / Real.cos theta) ?_
  · have h1 : IsClosed {v : V3 | -(t / 2) ≤ v 2} := isClosed_le (by fun_prop) (by fun_prop)
    have h2 : IsClosed {v : V3 | v 2 ≤ t / 2} := isClosed_le (by fun_prop) (by fun_prop)
    have h3 : IsClosed {v : V3 | (v 0 * Real.cos theta - v 2 * Real.sin theta) ^ 2 + v 1 ^ 2 ≤ r ^ 2} :=
      isClosed_le (by fun_prop) (by fun_prop)
    exact h1.inter (h2.inter h3)
  · rintro v ⟨h1, h2, h3⟩ i
    have hc1 := Real.cos_le_one theta
    have hz : |v 2| ≤ t / 2 := abs_le.2 ⟨h1, h2⟩
    have hy : |v 1| ≤ r := abs_le_of_sq_le_sq (by nlinarith [sq_nonneg (v 0 * Real.cos theta - v 2 * Real.sin theta)]) hr
    have hw : |v 0 * Real.cos theta - v 2 * Real.sin theta| ≤ r := abs_le_of_sq_le_sq (by nlinarith [sq_nonneg (v 1)]) hr
    rw [le_div_iff₀ hc]
    fin_cases i
    · have hs := Real.abs_sin_le_one theta
      have h4 : |v 0| * Real.cos theta = |v 0 * Real.cos theta| := by rw [abs_mul, abs_of_pos hc]
      have h5 : |v 0 * Real.cos theta| ≤ |v 0 * Real.cos theta - v 2 * Real.sin theta| + |v 2 * Real.sin theta| := by
        have := abs_add_le (v 0 * Real.cos theta - v 2 * Real.sin theta) (v 2 * Real.sin theta)
        simpa using this
      have h6 : |v 2 * Real.sin theta| ≤ t / 2 := by
        rw [abs_mul]
        calc |v 2| * |Real.sin theta| ≤ (t / 2) * 1 := by gcongr
          _ = t / 2 := mul_one _
      simp only [Fin.zero_eta]
      linarith
    · have := abs_nonneg (v 1)
      simp only [Fin.mk_one]
      nlinarith
    · have := abs_nonneg (v 2)
      simp only [Fin.reduceFinMk]
      nlinarith

end Newt
