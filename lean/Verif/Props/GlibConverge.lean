import Verif.Proofs.ApproxSets
import Verif.Proofs.PlanarNgon
import Verif.Props.GlibShapes

/-!
# C84: finer and finer point arrays of `newt/glibShapes.py` become the uniform solid

`Approximates` (Spec/Approx): the generator succeeds for all large grids and `sum_i m_i f(x_i)` converges to
`mass / volume * integral of f` for every `f` continuous on the solid.
-/

namespace Newt

open Spec Shp MeasureTheory Filter Topology

theorem ev2 : ∀ᶠ n : ℕ × ℕ in atTop, 0 < n.1 ∧ 0 < n.2 := by
  filter_upwards [eventually_ge_atTop ((1, 1) : ℕ × ℕ)] with n hn
  exact ⟨hn.1, hn.2⟩

theorem forall_fin3 {p : Fin 3 → Prop} (h0 : p 0) (h1 : p 1) (h2 : p 2) : ∀ j, p j := by
  intro j; fin_cases j <;> assumption

theorem prism_sector_eq {r1 r2 t beta : ℝ} (h1 : 0 ≤ r1) (h2 : 0 ≤ r2) (hb0 : 0 < beta) (hb1 : beta ≤ Real.pi) :
    prism t (sector r1 r2 0 beta) = {v : V3 | |v 2| ≤ t / 2} ∩ ({v : V3 | r1 ^ 2 ≤ v 0 ^ 2 + v 1 ^ 2} ∩
      ({v : V3 | v 0 ^ 2 + v 1 ^ 2 ≤ r2 ^ 2} ∩ {v : V3 | |v 1| * Real.cos beta ≤ v 0 * Real.sin beta})) := by
  ext v
  simp only [prism, Set.mem_setOf_eq, Set.mem_inter_iff, mem_sector_iff h1 hb0 hb1 _ _ h2, abs_le]
  tauto

theorem nf_prism_sector {r1 r2 t beta : ℝ} (h1 : 0 ≤ r1) (h2 : 0 ≤ r2) (hb0 : 0 < beta) (hb1 : beta ≤ Real.pi) :
    volume (frontier (prism t (sector r1 r2 0 beta))) = 0 := by
  rw [prism_sector_eq h1 h2 hb0 hb1]
  exact nf_inter (nf_abs 2 _) (nf_inter (nf_outside _) (nf_inter (nf_disc _) (nf_azimuth _)))

theorem half_angle_point {beta : ℝ} (hb0 : 0 < beta) (hb1 : beta ≤ Real.pi) {r : ℝ} (hr : 0 < r) :
    |r * Real.sin (beta / 2)| * Real.cos beta < r * Real.cos (beta / 2) * Real.sin beta := by
  have hs : 0 < Real.sin (beta / 2) := Real.sin_pos_of_pos_of_lt_pi (by linarith) (by linarith)
  rw [abs_of_pos (by positivity)]
  have e : Real.sin (beta / 2) = Real.sin beta * Real.cos (beta / 2) - Real.cos beta * Real.sin (beta / 2) := by
    rw [← Real.sin_sub]; congr 1; ring
  nlinarith [mul_pos hr hs]

theorem vol_prism_sector {r1 r2 t beta : ℝ} (h1 : 0 ≤ r1) (h2 : r1 < r2) (ht : 0 < t) (hb0 : 0 < beta)
    (hb1 : beta ≤ Real.pi) : volume (prism t (sector r1 r2 0 beta)) ≠ 0 := by
  refine vol_ne_of_open (U := {v : V3 | |v 2| < t / 2} ∩ ({v : V3 | r1 ^ 2 < v 0 ^ 2 + v 1 ^ 2} ∩
      ({v : V3 | v 0 ^ 2 + v 1 ^ 2 < r2 ^ 2} ∩ {v : V3 | |v 1| * Real.cos beta < v 0 * Real.sin beta}))) ?_ ?_ ?_
  · exact (isOpen_lt (by fun_prop) (by fun_prop)).inter ((isOpen_lt (by fun_prop) (by fun_prop)).inter
      ((isOpen_lt (by fun_prop) (by fun_prop)).inter (isOpen_lt (by fun_prop) (by fun_prop))))
  · set r := (r1 + r2) / 2 with hr
    have hr0 : 0 < r := by rw [hr]; linarith
    refine ⟨![r * Real.cos (beta / 2), r * Real.sin (beta / 2), 0], ?_⟩
    have hsq : (r * Real.cos (beta / 2)) ^ 2 + (r * Real.sin (beta / 2)) ^ 2 = r ^ 2 := by
      nlinarith [Real.sin_sq_add_cos_sq (beta / 2)]
    simp only [Set.mem_inter_iff, Set.mem_setOf_eq, Matrix.cons_val, hsq, abs_zero]
    refine ⟨by linarith, by nlinarith, by nlinarith, half_angle_point hb0 hb1 hr0⟩
  · rw [prism_sector_eq h1 (by linarith) hb0 hb1]
    intro v hv
    simp only [Set.mem_inter_iff, Set.mem_setOf_eq] at hv ⊢
    exact ⟨hv.1.le, hv.2.1.le, hv.2.2.1.le, hv.2.2.2.le⟩

/-- `annulus` fills the annulus. -/
theorem C84_annulus (mass r1 r2 t : ℝ) (hm : mass ≠ 0) (h1 : 0 ≤ r1) (h2 : r1 < r2) (ht : 0 < t) :
    Approximates atTop (fun n : ℕ × ℕ => Shp.annulus mass r1 r2 t n.1 n.2) mass (prism t (sector r1 r2 0 Real.pi)) := by
  classical
  have hpi := Real.pi_pos
  have hr2 : 0 < r2 := by linarith
  have hden : Real.pi * (r2 ^ 2 - r1 ^ 2) * t ≠ 0 := by
    have : 0 < r2 ^ 2 - r1 ^ 2 := by nlinarith
    positivity
  have hmem : ∀ v : V3, v ∈ prism t (sector r1 r2 0 Real.pi) ↔
      |v 2| ≤ t / 2 ∧ r1 ^ 2 ≤ v 0 ^ 2 + v 1 ^ 2 ∧ v 0 ^ 2 + v 1 ^ 2 ≤ r2 ^ 2 := by
    intro v
    rw [prism_sector_eq h1 hr2.le hpi le_rfl]
    simp only [Set.mem_inter_iff, Set.mem_setOf_eq, Real.cos_pi, Real.sin_pi]
    have := abs_nonneg (v 1)
    constructor
    · tauto
    · rintro ⟨a, b, c⟩; exact ⟨a, b, c, by linarith⟩
  have h := (approximates_box ![r2 * 2, r2 * 2, t] ![0, 0, 0]
    (forall_fin3 (by simpa using hr2) (by simpa using hr2) (by simpa using ht))
    (prism t (sector r1 r2 0 Real.pi)) (prism_compact _ _ (sector_compact _ _ _ _))
    (nf_prism_sector h1 hr2.le hpi le_rfl) (vol_prism_sector h1 h2 ht hpi le_rfl) (by
      intro v hv
      obtain ⟨a, b, c⟩ := (hmem v).1 hv
      refine forall_fin3 ?_ ?_ ?_ <;> simp only [Matrix.cons_val, sub_zero]
      · rw [mul_div_cancel_right₀ _ two_ne_zero]; exact abs_le_of_sq_le_sq (by nlinarith) hr2.le
      · rw [mul_div_cancel_right₀ _ two_ne_zero]; exact abs_le_of_sq_le_sq (by nlinarith) hr2.le
      · exact a) mass (fun v => decide (r1 ^ 2 ≤ v 0 ^ 2 + v 1 ^ 2 ∧ v 0 ^ 2 + v 1 ^ 2 ≤ r2 ^ 2)) (by
      intro v hv
      have h3 := hv 2
      simp only [Matrix.cons_val, sub_zero] at h3
      rw [decide_eq_true_iff, hmem]
      exact ⟨fun h => ⟨h3.le, h⟩, fun h => h.2⟩)
    (fun n => mass / (Real.pi * (r2 ^ 2 - r1 ^ 2) * t) * (r2 * 2 / n.1) * (r2 * 2 / n.1) * (t / n.2.2)) (by
      intro n a b c
      have : (0 : ℝ) < n.1 := by exact_mod_cast a
      have : (0 : ℝ) < n.2.2 := by exact_mod_cast c
      refine mul_ne_zero (mul_ne_zero (mul_ne_zero (div_ne_zero hm hden) ?_) ?_) ?_ <;> positivity)).1
  refine (h.comp tendsto_dup).congr' ?_
  filter_upwards [ev2] with n hn
  rw [Shp.annulus, if_neg (by push Not; exact ⟨hn.2.ne', hn.1.ne', hden⟩)]
  rfl

/-- `wedge` fills the annular sector of half-angle `beta`. -/
theorem C84_wedge (mass r1 r2 t beta : ℝ) (hm : mass ≠ 0) (h1 : 0 ≤ r1) (h2 : r1 < r2) (ht : 0 < t) (hb0 : 0 < beta)
    (hb1 : beta ≤ Real.pi) :
    Approximates atTop (fun n : ℕ × ℕ => Shp.wedge mass r1 r2 t beta n.1 n.2) mass (prism t (sector r1 r2 0 beta)) := by
  classical
  have hpi := Real.pi_pos
  have hr2 : 0 < r2 := by linarith
  have hden : Real.pi * (r2 ^ 2 - r1 ^ 2) * t ≠ 0 := by
    have : 0 < r2 ^ 2 - r1 ^ 2 := by nlinarith
    positivity
  set xmin := (if beta < Real.pi / 2 then Real.cos beta * r1 else Real.cos beta * r2) with hxmin
  set ymax := (if beta < Real.pi / 2 then Real.sin beta * r2 else r2) with hymax
  have hxp : 0 < r2 - xmin := by
    rw [hxmin]
    split_ifs with hb
    · nlinarith [Real.cos_le_one beta]
    · have hcb : Real.cos beta ≤ 0 := Real.cos_nonpos_of_pi_div_two_le_of_le (by linarith) (by linarith)
      nlinarith
  have hyp : 0 < ymax := by
    rw [hymax]
    split_ifs with hb
    · exact mul_pos (Real.sin_pos_of_pos_of_lt_pi hb0 (by linarith)) hr2
    · exact hr2
  have h := (approximates_box ![r2 - xmin, 2 * ymax, t] ![(r2 + xmin) / 2, 0, 0]
    (forall_fin3 (by simpa using hxp) (by simpa using hyp) (by simpa using ht))
    (prism t (sector r1 r2 0 beta)) (prism_compact _ _ (sector_compact _ _ _ _))
    (nf_prism_sector h1 hr2.le hb0 hb1) (vol_prism_sector h1 h2 ht hb0 hb1) (by
      rintro v ⟨hz1, hz2, hv⟩
      obtain ⟨a, b, c⟩ := sector_box h1 hb0 hb1 hv
      refine forall_fin3 ?_ ?_ ?_ <;> simp only [Matrix.cons_val, sub_zero]
      · rw [abs_le]; constructor <;> linarith
      · linarith
      · exact abs_le.2 ⟨by linarith, hz2⟩) mass (fun v => decide (|arctan2 (v 1) (v 0)| ≤ beta ∧ Real.sqrt (v 0 ^ 2 + v 1 ^ 2) ≤ r2 ∧
          r1 ≤ Real.sqrt (v 0 ^ 2 + v 1 ^ 2))) (by
      intro v hv
      have h3 := hv 2
      simp only [Matrix.cons_val, sub_zero] at h3
      rw [decide_eq_true_iff, azimuth_iff hb0 hb1, Real.sqrt_le_left hr2.le, Real.le_sqrt h1,
        prism_sector_eq h1 hr2.le hb0 hb1]
      · simp only [Set.mem_inter_iff, Set.mem_setOf_eq]
        have := h3.le
        tauto
      · positivity)
    (fun n => mass / (Real.pi * (r2 ^ 2 - r1 ^ 2) * t) * ((r2 - xmin) / n.1) * (2 * ymax / n.1) * (t / n.2.2)) (by
      intro n a b c
      have : (0 : ℝ) < n.1 := by exact_mod_cast a
      have : (0 : ℝ) < n.2.2 := by exact_mod_cast c
      refine mul_ne_zero (mul_ne_zero (mul_ne_zero (div_ne_zero hm hden) ?_) ?_) ?_ <;> positivity)).2
  refine (h.comp tendsto_dup).congr' ?_
  filter_upwards [ev2] with n hn
  rw [Shp.wedge]
  extract_lets
  rw [if_neg (by push Not; exact ⟨hn.2.ne', fun h => absurd h hn.1.ne', hden⟩)]
  rfl

theorem mem_coneOver_sector {R H beta : ℝ} (hR : 0 ≤ R) (hH : 0 < H) (hb0 : 0 < beta) (hb1 : beta ≤ Real.pi) (v : V3) :
    v ∈ coneOver H (sector 0 R 0 beta) ↔ 0 ≤ v 2 ∧ v 2 ≤ H ∧ Real.sqrt (v 0 ^ 2 + v 1 ^ 2) ≤ R - R / H * v 2 ∧
      |v 1| * Real.cos beta ≤ v 0 * Real.sin beta := by
  constructor
  · rintro ⟨s, hs0, hs1, ⟨x, y⟩, hb, e0, e1, e2⟩
    simp only at e0 e1
    obtain ⟨-, g2, g3⟩ := (mem_sector_iff le_rfl hb0 hb1 x y hR).1 hb
    have hz : R - R / H * v 2 = R * s := by rw [e2]; field_simp; ring
    refine ⟨by rw [e2]; nlinarith, by rw [e2]; nlinarith, ?_, ?_⟩
    · rw [hz, Real.sqrt_le_left (by positivity), e0, e1]
      nlinarith [mul_le_mul_of_nonneg_left g2 (sq_nonneg s)]
    · rw [e0, e1, abs_mul, abs_of_nonneg hs0]
      nlinarith [mul_le_mul_of_nonneg_left g3 hs0]
  · rintro ⟨g1, g2, g3, g4⟩
    have hs0 : 0 ≤ 1 - v 2 / H := by
      have : v 2 / H ≤ 1 := by rw [div_le_one hH]; exact g2
      linarith
    have hs1 : 1 - v 2 / H ≤ 1 := by
      have : 0 ≤ v 2 / H := div_nonneg g1 hH.le
      linarith
    have hz : R - R / H * v 2 = R * (1 - v 2 / H) := by ring
    rw [hz, Real.sqrt_le_left (by positivity)] at g3
    rcases eq_or_lt_of_le hs0 with h | h
    · rw [← h] at g3
      have hx0 : v 0 = 0 := by nlinarith [sq_nonneg (v 0), sq_nonneg (v 1)]
      have hy0 : v 1 = 0 := by nlinarith [sq_nonneg (v 0), sq_nonneg (v 1)]
      refine ⟨0, le_rfl, zero_le_one, (0, 0), ⟨0, 0, le_rfl, hR, by linarith, by linarith, by simp, by simp⟩, by simp [hx0], by simp [hy0], ?_⟩
      have : v 2 / H = 1 := by linarith
      rw [div_eq_one_iff_eq hH.ne'] at this
      rw [this]; ring
    · refine ⟨1 - v 2 / H, hs0, hs1, (v 0 / (1 - v 2 / H), v 1 / (1 - v 2 / H)),
        (mem_sector_iff le_rfl hb0 hb1 _ _ hR).2 ⟨by rw [zero_pow two_ne_zero]; positivity, ?_, ?_⟩, ?_, ?_, ?_⟩
      · rw [div_pow, div_pow, ← add_div, div_le_iff₀ (by positivity)]; linarith [mul_pow R (1 - v 2 / H) 2]
      · rw [abs_div, abs_of_pos h, div_mul_eq_mul_div, div_mul_eq_mul_div]
        exact div_le_div_of_nonneg_right g4 h.le
      · simp only; rw [mul_div_cancel₀ _ h.ne']
      · simp only; rw [mul_div_cancel₀ _ h.ne']
      · field_simp; ring

/-- `cone` fills the cone over the sector of half-angle `beta`. -/
theorem C84_cone (mass R H beta : ℝ) (hm : mass ≠ 0) (hR : 0 < R) (hH : 0 < H) (hb0 : 0 < beta)
    (hb1 : beta ≤ Real.pi) :
    Approximates atTop (fun n : ℕ × ℕ => Shp.cone mass R H beta n.1 n.2) mass (coneOver H (sector 0 R 0 beta)) := by
  classical
  have hpi := Real.pi_pos
  have hden : Real.pi * H * R ^ 2 / 3 ≠ 0 := by positivity
  set xmin := (if beta < Real.pi / 2 then 0 else Real.cos beta * R) with hxmin
  set ymax := (if beta < Real.pi / 2 then Real.sin beta * R else R) with hymax
  have hx0 : xmin ≤ 0 := by
    rw [hxmin]
    split_ifs with hb
    · exact le_rfl
    · have hcb : Real.cos beta ≤ 0 := Real.cos_nonpos_of_pi_div_two_le_of_le (by linarith) (by linarith)
      nlinarith
  have hxp : 0 < R - xmin := by linarith
  have hyp : 0 < ymax := by
    rw [hymax]
    split_ifs with hb
    · exact mul_pos (Real.sin_pos_of_pos_of_lt_pi hb0 (by linarith)) hR
    · exact hR
  have hmem := mem_coneOver_sector hR.le hH hb0 hb1
  have h := (approximates_box ![R - xmin, 2 * ymax, H] ![(R + xmin) / 2, 0, H / 2]
    (forall_fin3 (by simpa using hxp) (by simpa using hyp) (by simpa using hH))
    (coneOver H (sector 0 R 0 beta)) (coneOver_compactV _ _ (sector_compact _ _ _ _))
    (by
      have e : coneOver H (sector 0 R 0 beta) = {v : V3 | 0 ≤ v 2} ∩ ({v : V3 | v 2 ≤ H} ∩
          ({v : V3 | Real.sqrt (v 0 ^ 2 + v 1 ^ 2) ≤ R - R / H * v 2} ∩
          {v : V3 | |v 1| * Real.cos beta ≤ v 0 * Real.sin beta})) := Set.ext hmem
      rw [e]
      exact nf_inter (nf_ge 2 _) (nf_inter (nf_le 2 _) (nf_inter (nf_cone _ _) (nf_azimuth _))))
    (by
      refine vol_ne_of_open (U := {v : V3 | 0 < v 2} ∩ ({v : V3 | v 2 < H} ∩
          ({v : V3 | Real.sqrt (v 0 ^ 2 + v 1 ^ 2) < R - R / H * v 2} ∩
          {v : V3 | |v 1| * Real.cos beta < v 0 * Real.sin beta}))) ?_ ?_ ?_
      · exact (isOpen_lt (by fun_prop) (by fun_prop)).inter ((isOpen_lt (by fun_prop) (by fun_prop)).inter
          ((isOpen_lt (by fun_prop) (by fun_prop)).inter (isOpen_lt (by fun_prop) (by fun_prop))))
      · refine ⟨![R / 4 * Real.cos (beta / 2), R / 4 * Real.sin (beta / 2), H / 2], ?_⟩
        have hsq : (R / 4 * Real.cos (beta / 2)) ^ 2 + (R / 4 * Real.sin (beta / 2)) ^ 2 = (R / 4) ^ 2 := by
          nlinarith [Real.sin_sq_add_cos_sq (beta / 2)]
        simp only [Set.mem_inter_iff, Set.mem_setOf_eq, Matrix.cons_val, hsq]
        refine ⟨by linarith, by linarith, ?_, half_angle_point hb0 hb1 (by positivity)⟩
        rw [Real.sqrt_sq (by positivity)]
        field_simp
        linarith
      · intro v hv
        rw [hmem]
        simp only [Set.mem_inter_iff, Set.mem_setOf_eq] at hv
        exact ⟨hv.1.le, hv.2.1.le, hv.2.2.1.le, hv.2.2.2.le⟩)
    (by
      intro v hv
      obtain ⟨hz1, hz2, -, -⟩ := (hmem v).1 hv
      obtain ⟨s, hs0, hs1, ⟨x, y⟩, hb, e0, e1, -⟩ := hv
      simp only at e0 e1
      obtain ⟨a, b, c⟩ := sector_box le_rfl hb0 hb1 hb
      rw [mul_zero] at a
      change xmin ≤ x at a
      change |y| ≤ ymax at c
      refine forall_fin3 ?_ ?_ ?_ <;> simp only [Matrix.cons_val, sub_zero]
      · rw [abs_le, e0]; constructor <;> nlinarith
      · rw [e1, abs_mul, abs_of_nonneg hs0]; nlinarith [abs_nonneg y]
      · exact abs_le.2 ⟨by linarith, by linarith⟩) mass (fun v => decide (|arctan2 (v 1) (v 0)| ≤ beta ∧
          Real.sqrt (v 0 ^ 2 + v 1 ^ 2) ^ 2 ≤ R ^ 2 * (1 - v 2 / H) ^ 2)) (by
      intro v hv
      have h3 := hv 2
      simp only [Matrix.cons_val] at h3
      rw [abs_lt] at h3
      rw [decide_eq_true_iff, azimuth_iff hb0 hb1, hmem]
      have hz : R - R / H * v 2 = R * (1 - v 2 / H) := by ring
      have hp : 0 < 1 - v 2 / H := by
        have : v 2 / H < 1 := by rw [div_lt_one hH]; linarith [h3.2]
        linarith
      rw [hz, ← mul_pow, sq_le_sq₀ (Real.sqrt_nonneg _) (by positivity)]
      have : 0 ≤ v 2 := by linarith [h3.1]
      have : v 2 ≤ H := by linarith [h3.2]
      tauto)
    (fun n => mass / (Real.pi * H * R ^ 2 / 3) * ((R - xmin) / n.1) * (2 * ymax / n.1) * (H / n.2.2)) (by
      intro n a b c
      have : (0 : ℝ) < n.1 := by exact_mod_cast a
      have : (0 : ℝ) < n.2.2 := by exact_mod_cast c
      refine mul_ne_zero (mul_ne_zero (mul_ne_zero (div_ne_zero hm hden) ?_) ?_) ?_ <;> positivity)).2
  refine (h.comp tendsto_dup).congr' ?_
  filter_upwards [ev2] with n hn
  rw [Shp.cone]
  extract_lets
  rw [if_neg (by push Not; exact ⟨hn.2.ne', hn.1.ne', hden⟩)]
  rfl

theorem mem_annularCone {r1 r2 H beta : ℝ} (h1 : 0 ≤ r1) (h2 : r1 < r2) (hH : 0 < H) (hb0 : 0 < beta)
    (hb1 : beta ≤ Real.pi) (v : V3) :
    v ∈ annularCone r1 r2 H beta ↔ 0 ≤ v 2 ∧ r1 ^ 2 ≤ v 0 ^ 2 + v 1 ^ 2 ∧
      Real.sqrt (v 0 ^ 2 + v 1 ^ 2) ≤ r2 - (r2 - r1) / H * v 2 ∧ |v 1| * Real.cos beta ≤ v 0 * Real.sin beta := by
  have hd : 0 < r2 - r1 := by linarith
  constructor
  · rintro ⟨r, phi, hr1, hr2, hp, hx, hy, hz, hz2⟩
    have hr0 : 0 ≤ r := h1.trans hr1
    have hp' := abs_le.1 hp
    obtain ⟨g1, g2, g3⟩ := (mem_sector_iff h1 hb0 hb1 (v 0) (v 1) (by linarith)).1
      ⟨r, phi, hr1, hr2, by linarith [hp'.1], by linarith [hp'.2], hx, hy⟩
    refine ⟨hz, g1, ?_, g3⟩
    have hsq : v 0 ^ 2 + v 1 ^ 2 = r ^ 2 := by
      rw [hx, hy]; nlinarith [Real.sin_sq_add_cos_sq phi]
    rw [hsq, Real.sqrt_sq hr0]
    have : (r2 - r1) / H * v 2 ≤ r2 - r := by
      rw [div_mul_eq_mul_div, div_le_iff₀ hH]; linarith
    linarith
  · rintro ⟨g1, g2, g3, g4⟩
    have ha := (azimuth_iff hb0 hb1 _ _).2 g4
    have : 0 ≤ (r2 - r1) / H * v 2 := by positivity
    refine ⟨Real.sqrt (v 0 ^ 2 + v 1 ^ 2), arctan2 (v 1) (v 0), Real.le_sqrt_of_sq_le g2, by linarith, ha,
      (polar_x _ _).symm, (polar_y _ _).symm, g1, ?_⟩
    have : (r2 - r1) / H * v 2 ≤ r2 - Real.sqrt (v 0 ^ 2 + v 1 ^ 2) := by linarith
    rw [div_mul_eq_mul_div, div_le_iff₀ hH] at this
    linarith

/-- `outer_cone` fills the annular cone of half-angle `beta`. -/
theorem C84_outer_cone (mass r1 r2 H beta : ℝ) (hm : mass ≠ 0) (h1 : 0 ≤ r1) (h2 : r1 < r2) (hH : 0 < H)
    (hb0 : 0 < beta) (hb1 : beta ≤ Real.pi) :
    Approximates atTop (fun n : ℕ × ℕ => outerCone mass r1 r2 H beta n.1 n.2) mass (annularCone r1 r2 H beta) := by
  classical
  have hpi := Real.pi_pos
  have hr2 : 0 < r2 := by linarith
  have hd : 0 < r2 - r1 := by linarith
  have hden : beta * (H * r2 / (r2 - r1) * r2 ^ 2 / 3 - H * r1 ^ 2 - (H * r2 / (r2 - r1) - H) * r1 ^ 2 / 3) ≠ 0 := by
    have e : beta * (H * r2 / (r2 - r1) * r2 ^ 2 / 3 - H * r1 ^ 2 - (H * r2 / (r2 - r1) - H) * r1 ^ 2 / 3)
        = beta * H * (r2 - r1) * (r2 + 2 * r1) / 3 := by
      field_simp; ring
    rw [e]; positivity
  set xmin := (if beta < Real.pi / 2 then Real.cos beta * r1 else Real.cos beta * r2) with hxmin
  set ymax := (if beta < Real.pi / 2 then Real.sin beta * r2 else r2) with hymax
  have hxp : 0 < r2 - xmin := by
    rw [hxmin]
    split_ifs with hb
    · nlinarith [Real.cos_le_one beta]
    · have hcb : Real.cos beta ≤ 0 := Real.cos_nonpos_of_pi_div_two_le_of_le (by linarith) (by linarith)
      nlinarith
  have hyp : 0 < ymax := by
    rw [hymax]
    split_ifs with hb
    · exact mul_pos (Real.sin_pos_of_pos_of_lt_pi hb0 (by linarith)) hr2
    · exact hr2
  have hmem := mem_annularCone h1 h2 hH hb0 hb1
  have heq : annularCone r1 r2 H beta = {v : V3 | 0 ≤ v 2} ∩ ({v : V3 | r1 ^ 2 ≤ v 0 ^ 2 + v 1 ^ 2} ∩
      ({v : V3 | Real.sqrt (v 0 ^ 2 + v 1 ^ 2) ≤ r2 - (r2 - r1) / H * v 2} ∩
          {v : V3 | |v 1| * Real.cos beta ≤ v 0 * Real.sin beta})) := Set.ext hmem
  have hbx : ∀ v ∈ annularCone r1 r2 H beta, ∀ j, |v j - ![(r2 + xmin) / 2, 0, H / 2] j| ≤ ![r2 - xmin, 2 * ymax, H] j / 2 := by
    intro v hv
    obtain ⟨hz1, -, -, -⟩ := (hmem v).1 hv
    obtain ⟨r, phi, hr1, hr2, hp, hx, hy, hz, hz2⟩ := hv
    have hp' := abs_le.1 hp
    obtain ⟨a, b, c⟩ := sector_box (x := v 0) (y := v 1) (r2 := r2) h1 hb0 hb1
      ⟨r, phi, hr1, hr2, by linarith [hp'.1], by linarith [hp'.2], hx, hy⟩
    change xmin ≤ _ at a
    change _ ≤ ymax at c
    have hzH : v 2 ≤ H := by
      have : v 2 * (r2 - r1) ≤ H * (r2 - r1) := by nlinarith
      exact le_of_mul_le_mul_right this hd
    refine forall_fin3 ?_ ?_ ?_ <;> simp only [Matrix.cons_val, sub_zero]
    · rw [abs_le]; constructor <;> linarith
    · linarith
    · exact abs_le.2 ⟨by linarith, by linarith⟩
  have hcl : IsClosed (annularCone r1 r2 H beta) := by
    rw [heq]
    exact (isClosed_le (by fun_prop) (by fun_prop)).inter ((isClosed_le (by fun_prop) (by fun_prop)).inter
      ((isClosed_le (by fun_prop) (by fun_prop)).inter (isClosed_le (by fun_prop) (by fun_prop))))
  have h := (approximates_box ![r2 - xmin, 2 * ymax, H] ![(r2 + xmin) / 2, 0, H / 2]
    (forall_fin3 (by simpa using hxp) (by simpa using hyp) (by simpa using hH))
    (annularCone r1 r2 H beta) (compact_of_box hcl _ _ hbx)
    (by
      rw [heq]
      exact nf_inter (nf_ge 2 _) (nf_inter (nf_outside _) (nf_inter (nf_cone _ _) (nf_azimuth _))))
    (by
      refine vol_ne_of_open (U := {v : V3 | 0 < v 2} ∩ ({v : V3 | r1 ^ 2 < v 0 ^ 2 + v 1 ^ 2} ∩
          ({v : V3 | Real.sqrt (v 0 ^ 2 + v 1 ^ 2) < r2 - (r2 - r1) / H * v 2} ∩
          {v : V3 | |v 1| * Real.cos beta < v 0 * Real.sin beta}))) ?_ ?_ ?_
      · exact (isOpen_lt (by fun_prop) (by fun_prop)).inter ((isOpen_lt (by fun_prop) (by fun_prop)).inter
          ((isOpen_lt (by fun_prop) (by fun_prop)).inter (isOpen_lt (by fun_prop) (by fun_prop))))
      · set r := (r1 + r2) / 2 with hr
        have hr0 : 0 < r := by rw [hr]; linarith
        refine ⟨![r * Real.cos (beta / 2), r * Real.sin (beta / 2), H / 4], ?_⟩
        have hsq : (r * Real.cos (beta / 2)) ^ 2 + (r * Real.sin (beta / 2)) ^ 2 = r ^ 2 := by
          nlinarith [Real.sin_sq_add_cos_sq (beta / 2)]
        simp only [Set.mem_inter_iff, Set.mem_setOf_eq, Matrix.cons_val, hsq]
        refine ⟨by linarith, by nlinarith, ?_, half_angle_point hb0 hb1 hr0⟩
        rw [Real.sqrt_sq hr0.le]
        have : (r2 - r1) / H * (H / 4) = (r2 - r1) / 4 := by field_simp
        rw [this]; linarith
      · intro v hv
        rw [hmem]
        simp only [Set.mem_inter_iff, Set.mem_setOf_eq] at hv
        exact ⟨hv.1.le, hv.2.1.le, hv.2.2.1.le, hv.2.2.2.le⟩)
    hbx mass (fun v => decide (|arctan2 (v 1) (v 0)| ≤ beta ∧ Real.sqrt (v 0 ^ 2 + v 1 ^ 2) ≤ r2 - v 2 / (H / (r2 - r1)) ∧
          r1 ≤ Real.sqrt (v 0 ^ 2 + v 1 ^ 2))) (by
      intro v hv
      have h3 := hv 2
      simp only [Matrix.cons_val] at h3
      rw [abs_lt] at h3
      have h0 : 0 ≤ v 2 := by linarith [h3.1]
      have e : v 2 / (H / (r2 - r1)) = (r2 - r1) / H * v 2 := by field_simp
      rw [decide_eq_true_iff, azimuth_iff hb0 hb1, hmem, e, Real.le_sqrt h1 (by positivity)]
      tauto)
    (fun n => mass / (beta * (H * r2 / (r2 - r1) * r2 ^ 2 / 3 - H * r1 ^ 2 - (H * r2 / (r2 - r1) - H) * r1 ^ 2 / 3))
      * ((r2 - xmin) / n.1) * (2 * ymax / n.1) * (H / n.2.2)) (by
      intro n a b c
      have : (0 : ℝ) < n.1 := by exact_mod_cast a
      have : (0 : ℝ) < n.2.2 := by exact_mod_cast c
      refine mul_ne_zero (mul_ne_zero (mul_ne_zero (div_ne_zero hm hden) ?_) ?_) ?_ <;> positivity)).2
  refine (h.comp tendsto_dup).congr' ?_
  filter_upwards [ev2] with n hn
  rw [outerCone]
  extract_lets
  rw [if_neg (by push Not; exact ⟨hn.2.ne', fun h => absurd h hn.1.ne', hd.ne', hden⟩)]
  rfl

/-- `trapezoid` (half-angle below a right angle) fills the trapezoidal slab. -/
theorem C84_trapezoid (mass r1 r2 t beta : ℝ) (hm : mass ≠ 0) (h1 : 0 ≤ r1) (h2 : r1 < r2) (ht : 0 < t)
    (hb0 : 0 < beta) (hb1 : beta < Real.pi / 2) :
    Approximates atTop (fun n : ℕ × ℕ => Shp.trapezoid mass r1 r2 t beta n.1 n.2) mass (trapezoidSlab r1 r2 t beta) := by
  classical
  have hpi := Real.pi_pos
  have hr2 : 0 < r2 := by linarith
  have hden : Real.pi * (r2 ^ 2 - r1 ^ 2) * t ≠ 0 := by
    have : 0 < r2 ^ 2 - r1 ^ 2 := by nlinarith
    positivity
  have hc : 0 < Real.cos beta := Real.cos_pos_of_mem_Ioo ⟨by linarith, hb1⟩
  have hs : 0 < Real.sin beta := Real.sin_pos_of_pos_of_lt_pi hb0 (by linarith)
  have hmem : ∀ v : V3, v ∈ trapezoidSlab r1 r2 t beta ↔ r1 * Real.cos beta ≤ v 0 ∧ v 0 ≤ r2 * Real.cos beta ∧
      |v 1| * Real.cos beta ≤ v 0 * Real.sin beta ∧ |v 2| ≤ t / 2 := by
    intro v
    have : |v 1| ≤ v 0 * Real.tan beta ↔ |v 1| * Real.cos beta ≤ v 0 * Real.sin beta := by
      rw [Real.tan_eq_sin_div_cos, mul_div_assoc', le_div_iff₀ hc]
    simp only [trapezoidSlab, Set.mem_setOf_eq, this]
  have heq : trapezoidSlab r1 r2 t beta = {v : V3 | r1 * Real.cos beta ≤ v 0} ∩ ({v : V3 | v 0 ≤ r2 * Real.cos beta} ∩
      ({v : V3 | |v 1| * Real.cos beta ≤ v 0 * Real.sin beta} ∩ {v : V3 | |v 2| ≤ t / 2})) := Set.ext hmem
  have hbx : ∀ v ∈ trapezoidSlab r1 r2 t beta, ∀ j, |v j - ![(r2 * Real.cos beta + r1 * Real.cos beta) / 2, 0, 0] j|
      ≤ ![r2 * Real.cos beta - r1 * Real.cos beta, 2 * (r2 * Real.sin beta), t] j / 2 := by
    intro v hv
    obtain ⟨a, b, c, d⟩ := (hmem v).1 hv
    refine forall_fin3 ?_ ?_ ?_ <;> simp only [Matrix.cons_val, sub_zero]
    · rw [abs_le]; constructor <;> linarith
    · have : |v 1| * Real.cos beta ≤ r2 * Real.sin beta * Real.cos beta := by nlinarith
      linarith [le_of_mul_le_mul_right this hc]
    · exact d
  have hcl : IsClosed (trapezoidSlab r1 r2 t beta) := by
    rw [heq]
    exact (isClosed_le (by fun_prop) (by fun_prop)).inter ((isClosed_le (by fun_prop) (by fun_prop)).inter
      ((isClosed_le (by fun_prop) (by fun_prop)).inter (isClosed_le (by fun_prop) (by fun_prop))))
  have hx : 0 < r2 * Real.cos beta - r1 * Real.cos beta := by nlinarith
  have h := (approximates_box ![r2 * Real.cos beta - r1 * Real.cos beta, 2 * (r2 * Real.sin beta), t]
    ![(r2 * Real.cos beta + r1 * Real.cos beta) / 2, 0, 0]
    (forall_fin3 (by simpa using hx) (by simpa using mul_pos hr2 hs) (by simpa using ht))
    (trapezoidSlab r1 r2 t beta) (compact_of_box hcl _ _ hbx)
    (by
      rw [heq]
      exact nf_inter (nf_ge 0 _) (nf_inter (nf_le 0 _) (nf_inter (nf_azimuth _) (nf_abs 2 _))))
    (by
      refine vol_ne_of_open (U := {v : V3 | r1 * Real.cos beta < v 0} ∩ ({v : V3 | v 0 < r2 * Real.cos beta} ∩
        ({v : V3 | |v 1| * Real.cos beta < v 0 * Real.sin beta} ∩ {v : V3 | |v 2| < t / 2}))) ?_ ?_ ?_
      · exact (isOpen_lt (by fun_prop) (by fun_prop)).inter ((isOpen_lt (by fun_prop) (by fun_prop)).inter
          ((isOpen_lt (by fun_prop) (by fun_prop)).inter (isOpen_lt (by fun_prop) (by fun_prop))))
      · refine ⟨![(r1 * Real.cos beta + r2 * Real.cos beta) / 2, 0, 0], ?_⟩
        simp only [Set.mem_inter_iff, Set.mem_setOf_eq, Matrix.cons_val, abs_zero, zero_mul]
        refine ⟨by linarith, by linarith, ?_, by linarith⟩
        have : 0 < (r1 * Real.cos beta + r2 * Real.cos beta) / 2 := by positivity
        positivity
      · intro v hv
        rw [hmem]
        simp only [Set.mem_inter_iff, Set.mem_setOf_eq] at hv
        exact ⟨hv.1.le, hv.2.1.le, hv.2.2.1.le, hv.2.2.2.le⟩)
    hbx mass (fun v => decide (|arctan2 (v 1) (v 0)| ≤ beta)) (by
      intro v hv
      have h1 := hv 0
      have h3 := hv 2
      simp only [Matrix.cons_val, sub_zero] at h1 h3
      rw [abs_lt] at h1
      rw [decide_eq_true_iff, azimuth_iff hb0 (by linarith), hmem]
      have : r1 * Real.cos beta ≤ v 0 := by linarith [h1.1]
      have : v 0 ≤ r2 * Real.cos beta := by linarith [h1.2]
      have := h3.le
      tauto)
    (fun n => mass / (Real.pi * (r2 ^ 2 - r1 ^ 2) * t)
      * ((r2 * Real.cos beta - r1 * Real.cos beta) / n.1) * (2 * (r2 * Real.sin beta) / n.1) * (t / n.2.2)) (by
      intro n a b c
      have : (0 : ℝ) < n.1 := by exact_mod_cast a
      have : (0 : ℝ) < n.2.2 := by exact_mod_cast c
      refine mul_ne_zero (mul_ne_zero (mul_ne_zero (div_ne_zero hm hden) ?_) ?_) ?_ <;> positivity)).2
  refine (h.comp tendsto_dup).congr' ?_
  filter_upwards [ev2] with n hn
  rw [Shp.trapezoid]
  extract_lets
  rw [if_neg (by push Not; exact ⟨hn.2.ne', hden⟩), if_neg (not_le.2 hb1)]
  rfl

/-- `cylhole` fills the part of the cylinder that the hole removes. -/
theorem C84_cylhole (mass r R : ℝ) (hm : mass ≠ 0) (hr : 0 < r) (hR : 0 < R) :
    Approximates atTop (fun n : ℕ × ℕ => cylhole mass r R n.1 n.2) mass (drilledCylinder r R) := by
  classical
  have hden : 16 * R * r ^ 2 / 3 ≠ 0 := by positivity
  have heq : drilledCylinder r R = {v : V3 | v 0 ^ 2 + v 1 ^ 2 ≤ r ^ 2} ∩ {v : V3 | v 1 ^ 2 + v 2 ^ 2 ≤ R ^ 2} := rfl
  have hbx : ∀ v ∈ drilledCylinder r R, ∀ j, |v j - ![0, 0, 0] j| ≤ ![2 * r, 2 * r, 2 * R] j / 2 := by
    rintro v ⟨a, b⟩
    refine forall_fin3 ?_ ?_ ?_ <;> simp only [Matrix.cons_val, sub_zero]
    · rw [mul_div_cancel_left₀ _ two_ne_zero]; exact abs_le_of_sq_le_sq (by nlinarith) hr.le
    · rw [mul_div_cancel_left₀ _ two_ne_zero]; exact abs_le_of_sq_le_sq (by nlinarith) hr.le
    · rw [mul_div_cancel_left₀ _ two_ne_zero]; exact abs_le_of_sq_le_sq (by nlinarith) hR.le
  have hcl : IsClosed (drilledCylinder r R) := by
    rw [heq]
    exact (isClosed_le (by fun_prop) (by fun_prop)).inter (isClosed_le (by fun_prop) (by fun_prop))
  have h := (approximates_box ![2 * r, 2 * r, 2 * R] ![0, 0, 0]
    (forall_fin3 (by simpa using hr) (by simpa using hr) (by simpa using hR))
    (drilledCylinder r R) (compact_of_box hcl _ _ hbx)
    (by
      rw [heq]
      exact nf_inter (nf_disc _) (by simpa using nf_sq2 0 1 0 0 0 1 (R ^ 2)))
    (by
      refine vol_ne_of_open (U := {v : V3 | v 0 ^ 2 + v 1 ^ 2 < r ^ 2} ∩ {v : V3 | v 1 ^ 2 + v 2 ^ 2 < R ^ 2}) ?_ ?_ ?_
      · exact (isOpen_lt (by fun_prop) (by fun_prop)).inter (isOpen_lt (by fun_prop) (by fun_prop))
      · refine ⟨![0, 0, 0], ?_⟩
        simp
        exact ⟨by positivity, by positivity⟩
      · intro v hv
        simp only [Set.mem_inter_iff, Set.mem_setOf_eq] at hv
        exact ⟨hv.1.le, hv.2.le⟩)
    hbx mass (fun v => decide (Real.sqrt (v 0 ^ 2 + v 1 ^ 2) ≤ r ∧ Real.sqrt (v 1 ^ 2 + v 2 ^ 2) ≤ R)) (by
      intro v hv
      rw [decide_eq_true_iff, Real.sqrt_le_left hr.le, Real.sqrt_le_left hR.le]
      rfl)
    (fun n => mass / (16 * R * r ^ 2 / 3) * (2 * r / n.1) * (2 * r / n.1) * (2 * R / n.2.2)) (by
      intro n a b c
      have : (0 : ℝ) < n.1 := by exact_mod_cast a
      have : (0 : ℝ) < n.2.2 := by exact_mod_cast c
      refine mul_ne_zero (mul_ne_zero (mul_ne_zero (div_ne_zero hm hden) ?_) ?_) ?_ <;> positivity)).2
  refine (h.comp tendsto_dup).congr' ?_
  filter_upwards [ev2] with n hn
  rw [cylhole, if_neg (by push Not; exact ⟨hn.2.ne', hn.1.ne', hden⟩)]
  rfl

/-! ### Generators with three grid sizes -/

theorem ev3 : ∀ᶠ n : ℕ × ℕ × ℕ in atTop, 0 < n.1 ∧ 0 < n.2.1 ∧ 0 < n.2.2 := by
  filter_upwards [eventually_ge_atTop ((1, 1, 1) : ℕ × ℕ × ℕ)] with n hn
  exact ⟨hn.1, hn.2.1, hn.2.2⟩

theorem mem_triangle_iff {d a b : ℝ} (hd : 0 < d) (hab : a ≤ b) (x y : ℝ) :
    (x, y) ∈ triangle (d, a) (d, b) ↔ 0 ≤ x ∧ x ≤ d ∧ x * a ≤ y * d ∧ y * d ≤ x * b := by
  rw [mem_triangle d a b hd hab]
  constructor
  · rintro ⟨s, h0, h1, rfl, h3, h4⟩
    refine ⟨by positivity, by nlinarith, by nlinarith, by nlinarith⟩
  · rintro ⟨h0, h1, h2, h3⟩
    refine ⟨x / d, by positivity, (div_le_one hd).2 h1, by field_simp, ?_, ?_⟩
    · rw [div_mul_eq_mul_div, div_le_iff₀ hd]; exact h2
    · rw [div_mul_eq_mul_div, le_div_iff₀ hd]; exact h3

/-- `tri_prism` fills the part of the prism with `y >= 0`: the prism over the triangle with vertices at the origin,
`(d, max(0, y1))` and `(d, y2)`. -/
theorem C84_tri_prism_upper (mass d y1 y2 t : ℝ) (hm : mass ≠ 0) (hd : 0 < d) (h12 : y1 < y2) (h2 : 0 < y2)
    (ht : 0 < t) :
    Approximates atTop (fun n : ℕ × ℕ × ℕ => Shp.triPrism mass d y1 y2 t n.1 n.2.1 n.2.2) mass
      (prism t (triangle (d, max 0 y1) (d, y2))) := by
  classical
  have hden : t * (y2 - y1) * d / 2 ≠ 0 := by
    have : 0 < y2 - y1 := by linarith
    positivity
  have hab : max 0 y1 < y2 := max_lt h2 h12
  have ha0 : 0 ≤ max 0 y1 := le_max_left _ _
  have hmax : max 0 y2 = y2 := max_eq_right h2.le
  have hmin : min 0 y1 ≤ 0 := min_le_left _ _
  have hbase : 0 < max 0 y2 - min 0 y1 := by rw [hmax]; linarith
  have hmem : ∀ v : V3, v ∈ prism t (triangle (d, max 0 y1) (d, y2)) ↔ |v 2| ≤ t / 2 ∧ 0 ≤ v 0 ∧ v 0 ≤ d ∧
      v 0 * max 0 y1 ≤ v 1 * d ∧ v 1 * d ≤ v 0 * y2 := by
    intro v
    simp only [prism, Set.mem_setOf_eq, mem_triangle_iff hd hab.le, abs_le]
    tauto
  have heq : prism t (triangle (d, max 0 y1) (d, y2)) = {v : V3 | |v 2| ≤ t / 2} ∩ ({v : V3 | 0 ≤ v 0} ∩
      ({v : V3 | v 0 ≤ d} ∩ ({v : V3 | max 0 y1 * v 0 + -d * v 1 + 0 * v 2 ≤ 0} ∩
        {v : V3 | -y2 * v 0 + d * v 1 + 0 * v 2 ≤ 0}))) := by
    ext v
    rw [hmem]
    simp only [Set.mem_inter_iff, Set.mem_setOf_eq]
    refine and_congr_right fun _ => and_congr_right fun _ => and_congr_right fun _ => and_congr ?_ ?_ <;>
      constructor <;> intro h <;> linarith
  have h := (approximates_box ![d, max 0 y2 - min 0 y1, t] ![d / 2, (max 0 y2 - min 0 y1) / 2, 0]
    (forall_fin3 (by simpa using hd) hbase (by simpa using ht))
    (prism t (triangle (d, max 0 y1) (d, y2))) (prism_compact _ _ (triangle_compact _ _))
    (by
      rw [heq]
      exact nf_inter (nf_abs 2 _) (nf_inter (nf_ge 0 _) (nf_inter (nf_le 0 _) (nf_inter (nf_half _ _ _ _) (nf_half _ _ _ _)))))
    (by
      refine vol_ne_of_open (U := {v : V3 | |v 2| < t / 2} ∩ ({v : V3 | 0 < v 0} ∩
        ({v : V3 | v 0 < d} ∩ ({v : V3 | v 0 * max 0 y1 < v 1 * d} ∩ {v : V3 | v 1 * d < v 0 * y2})))) ?_ ?_ ?_
      · exact (isOpen_lt (by fun_prop) (by fun_prop)).inter ((isOpen_lt (by fun_prop) (by fun_prop)).inter
          ((isOpen_lt (by fun_prop) (by fun_prop)).inter ((isOpen_lt (by fun_prop) (by fun_prop)).inter
            (isOpen_lt (by fun_prop) (by fun_prop)))))
      · refine ⟨![d / 2, (max 0 y1 + y2) / 4, 0], ?_⟩
        simp only [Set.mem_inter_iff, Set.mem_setOf_eq, Matrix.cons_val, abs_zero]
        refine ⟨by linarith, by linarith, by linarith, by nlinarith, by nlinarith⟩
      · intro v hv
        rw [hmem]
        simp only [Set.mem_inter_iff, Set.mem_setOf_eq] at hv
        exact ⟨hv.1.le, hv.2.1.le, hv.2.2.1.le, hv.2.2.2.1.le, hv.2.2.2.2.le⟩)
    (by
      intro v hv
      obtain ⟨a, b, c, e, f⟩ := (hmem v).1 hv
      have hy0 : 0 ≤ v 1 := by
        have : 0 ≤ v 1 * d := le_trans (by positivity) e
        exact nonneg_of_mul_nonneg_left this hd
      have hy1 : v 1 ≤ y2 := by
        have : v 1 * d ≤ y2 * d := by nlinarith
        exact le_of_mul_le_mul_right this hd
      refine forall_fin3 ?_ ?_ ?_ <;> simp only [Matrix.cons_val, sub_zero]
      · rw [abs_le]; constructor <;> linarith
      · rw [hmax, abs_le]; constructor <;> linarith
      · exact a) mass (fun v => decide (v 0 * y1 ≤ v 1 * d ∧ v 0 * y2 ≥ v 1 * d)) (by
      intro v hv
      have g0 := hv 0
      have g1 := hv 1
      have g2 := hv 2
      simp only [Matrix.cons_val, sub_zero] at g0 g1 g2
      rw [abs_lt] at g0 g1
      have hx0 : 0 < v 0 := by linarith [g0.1]
      have hy0 : 0 < v 1 := by linarith [g1.1]
      have hm2 : v 0 * max 0 y1 ≤ v 1 * d ↔ v 0 * y1 ≤ v 1 * d := by
        rw [mul_max_of_nonneg _ _ hx0.le, mul_zero, max_le_iff]
        have : 0 ≤ v 1 * d := by positivity
        tauto
      rw [decide_eq_true_iff, hmem, hm2]
      have := g2.le
      have := hx0.le
      have : v 0 ≤ d := by linarith [g0.2]
      tauto)
    (fun n => mass / (t * (y2 - y1) * d / 2) * (d / n.1 * ((max 0 y2 - min 0 y1) / n.2.1) * (t / n.2.2) / 2)) (by
      intro n a b c
      have : (0 : ℝ) < n.1 := by exact_mod_cast a
      have : (0 : ℝ) < n.2.1 := by exact_mod_cast b
      have : (0 : ℝ) < n.2.2 := by exact_mod_cast c
      refine mul_ne_zero (div_ne_zero hm hden) ?_
      positivity)).1
  refine h.congr' ?_
  filter_upwards [ev3] with n hn
  rw [Shp.triPrism, if_neg (not_lt.2 h12.le), if_neg (by push Not; exact ⟨hn.2.2.ne', hn.1.ne', hden⟩)]
  rfl

/-- For `0 <= y1` this is the whole prism. -/
theorem C84_tri_prism (mass d y1 y2 t : ℝ) (hm : mass ≠ 0) (hd : 0 < d) (h1 : 0 ≤ y1) (h12 : y1 < y2) (ht : 0 < t) :
    Approximates atTop (fun n : ℕ × ℕ × ℕ => Shp.triPrism mass d y1 y2 t n.1 n.2.1 n.2.2) mass
      (prism t (triangle (d, y1) (d, y2))) := by
  have h := C84_tri_prism_upper mass d y1 y2 t hm hd h12 (by linarith) ht
  rwa [max_eq_right h1] at h

theorem mem_coneOver_triangle {x a b z : ℝ} (hx : 0 < x) (hz : 0 < z) (hab : a ≤ b) (v : V3) :
    v ∈ coneOver z (triangle (x, a) (x, b)) ↔ 0 ≤ v 2 ∧ 0 ≤ v 0 ∧ v 0 * z + v 2 * x ≤ x * z ∧
      v 0 * a ≤ v 1 * x ∧ v 1 * x ≤ v 0 * b := by
  constructor
  · rintro ⟨s, hs0, hs1, ⟨p, q⟩, hb, e0, e1, e2⟩
    simp only at e0 e1
    obtain ⟨g0, g1, g2, g3⟩ := (mem_triangle_iff hx hab p q).1 hb
    rw [e0, e1, e2]
    refine ⟨mul_nonneg (by linarith) hz.le, by positivity, ?_, ?_, ?_⟩
    · have : s * p * z ≤ s * x * z := mul_le_mul_of_nonneg_right (mul_le_mul_of_nonneg_left g1 hs0) hz.le
      nlinarith
    · nlinarith [mul_le_mul_of_nonneg_left g2 hs0]
    · nlinarith [mul_le_mul_of_nonneg_left g3 hs0]
  · rintro ⟨g0, g1, g2, g3, g4⟩
    have hzz : v 2 ≤ z := by
      have : v 2 * x ≤ z * x := by nlinarith
      exact le_of_mul_le_mul_right this hx
    have hs0 : 0 ≤ 1 - v 2 / z := by
      have : v 2 / z ≤ 1 := by rw [div_le_one hz]; exact hzz
      linarith
    have hs1 : 1 - v 2 / z ≤ 1 := by
      have : 0 ≤ v 2 / z := div_nonneg g0 hz.le
      linarith
    have g2' : v 0 ≤ x * (1 - v 2 / z) := by
      have : x * (1 - v 2 / z) * z = x * z - v 2 * x := by field_simp
      have h : v 0 * z ≤ x * (1 - v 2 / z) * z := by rw [this]; linarith
      exact le_of_mul_le_mul_right h hz
    rcases eq_or_lt_of_le hs0 with h | h
    · rw [← h, mul_zero] at g2'
      have h0 : v 0 = 0 := le_antisymm g2' g1
      rw [h0, zero_mul] at g3 g4
      have h1 : v 1 = 0 := by
        have : v 1 * x = 0 := le_antisymm g4 g3
        rcases mul_eq_zero.1 this with h | h
        · exact h
        · exact absurd h hx.ne'
      refine ⟨0, le_rfl, zero_le_one, (0, 0), ⟨0, 0, le_rfl, le_rfl, by norm_num, by simp, by simp⟩, by simp [h0], by simp [h1], ?_⟩
      have : v 2 / z = 1 := by linarith
      rw [div_eq_one_iff_eq hz.ne'] at this
      rw [this]; ring
    · refine ⟨1 - v 2 / z, hs0, hs1, (v 0 / (1 - v 2 / z), v 1 / (1 - v 2 / z)),
        (mem_triangle_iff hx hab _ _).2 ⟨by positivity, ?_, ?_, ?_⟩, ?_, ?_, ?_⟩
      · rw [div_le_iff₀ h]; exact g2'
      · rw [div_mul_eq_mul_div, div_mul_eq_mul_div]; exact div_le_div_of_nonneg_right g3 h.le
      · rw [div_mul_eq_mul_div, div_mul_eq_mul_div]; exact div_le_div_of_nonneg_right g4 h.le
      · simp only; rw [mul_div_cancel₀ _ h.ne']
      · simp only; rw [mul_div_cancel₀ _ h.ne']
      · field_simp; ring

/-- `tetrahedron` fills the part of the tetrahedron with `y >= 0`. -/
theorem C84_tetrahedron_upper (mass x y1 y2 z : ℝ) (hm : mass ≠ 0) (hx : 0 < x) (h12 : y1 < y2) (h2 : 0 < y2)
    (hz : 0 < z) :
    Approximates atTop (fun n : ℕ × ℕ × ℕ => Shp.tetrahedron mass x y1 y2 z n.1 n.2.1 n.2.2) mass
      (coneOver z (triangle (x, max 0 y1) (x, y2))) := by
  classical
  have hden : z * (y2 - y1) * x / 6 ≠ 0 := by
    have : 0 < y2 - y1 := by linarith
    positivity
  have hab : max 0 y1 < y2 := max_lt h2 h12
  have ha0 : 0 ≤ max 0 y1 := le_max_left _ _
  have hmax : max 0 y2 = y2 := max_eq_right h2.le
  have hmin : min 0 y1 ≤ 0 := min_le_left _ _
  have hbase : 0 < max 0 y2 - min 0 y1 := by rw [hmax]; linarith
  have hmem := mem_coneOver_triangle hx hz hab.le
  have heq : coneOver z (triangle (x, max 0 y1) (x, y2)) = {v : V3 | 0 ≤ v 2} ∩ ({v : V3 | 0 ≤ v 0} ∩
      ({v : V3 | z * v 0 + 0 * v 1 + x * v 2 ≤ x * z} ∩ ({v : V3 | max 0 y1 * v 0 + -x * v 1 + 0 * v 2 ≤ 0} ∩
        {v : V3 | -y2 * v 0 + x * v 1 + 0 * v 2 ≤ 0}))) := by
    ext v
    rw [hmem]
    simp only [Set.mem_inter_iff, Set.mem_setOf_eq]
    refine and_congr_right fun _ => and_congr_right fun _ => and_congr ?_ (and_congr ?_ ?_) <;>
      constructor <;> intro h <;> linarith
  have h := (approximates_box ![x, max 0 y2 - min 0 y1, z] ![x / 2, (max 0 y2 - min 0 y1) / 2, z / 2]
    (forall_fin3 (by simpa using hx) hbase (by simpa using hz))
    (coneOver z (triangle (x, max 0 y1) (x, y2))) (coneOver_compactV _ _ (triangle_compact _ _))
    (by
      rw [heq]
      exact nf_inter (nf_ge 2 _) (nf_inter (nf_ge 0 _) (nf_inter (nf_half _ _ _ _) (nf_inter (nf_half _ _ _ _) (nf_half _ _ _ _)))))
    (by
      refine vol_ne_of_open (U := {v : V3 | 0 < v 2} ∩ ({v : V3 | 0 < v 0} ∩
        ({v : V3 | v 0 * z + v 2 * x < x * z} ∩ ({v : V3 | v 0 * max 0 y1 < v 1 * x} ∩ {v : V3 | v 1 * x < v 0 * y2})))) ?_ ?_ ?_
      · exact (isOpen_lt (by fun_prop) (by fun_prop)).inter ((isOpen_lt (by fun_prop) (by fun_prop)).inter
          ((isOpen_lt (by fun_prop) (by fun_prop)).inter ((isOpen_lt (by fun_prop) (by fun_prop)).inter
            (isOpen_lt (by fun_prop) (by fun_prop)))))
      · refine ⟨![x / 4, (max 0 y1 + y2) / 8, z / 4], ?_⟩
        simp only [Set.mem_inter_iff, Set.mem_setOf_eq, Matrix.cons_val]
        have := mul_pos hx hz
        refine ⟨by linarith, by linarith, by nlinarith, by nlinarith, by nlinarith⟩
      · intro v hv
        rw [hmem]
        simp only [Set.mem_inter_iff, Set.mem_setOf_eq] at hv
        exact ⟨hv.1.le, hv.2.1.le, hv.2.2.1.le, hv.2.2.2.1.le, hv.2.2.2.2.le⟩)
    (by
      intro v hv
      obtain ⟨a, b, c, e, f⟩ := (hmem v).1 hv
      have hxx : v 0 ≤ x := by
        have : v 0 * z ≤ x * z := by nlinarith
        exact le_of_mul_le_mul_right this hz
      have hzz : v 2 ≤ z := by
        have : v 2 * x ≤ z * x := by nlinarith
        exact le_of_mul_le_mul_right this hx
      have hy0 : 0 ≤ v 1 := by
        have : 0 ≤ v 1 * x := le_trans (by positivity) e
        exact nonneg_of_mul_nonneg_left this hx
      have hy1 : v 1 ≤ y2 := by
        have : v 1 * x ≤ y2 * x := by nlinarith
        exact le_of_mul_le_mul_right this hx
      refine forall_fin3 ?_ ?_ ?_ <;> simp only [Matrix.cons_val, sub_zero]
      · rw [abs_le]; constructor <;> linarith
      · rw [hmax, abs_le]; constructor <;> linarith
      · rw [abs_le]; constructor <;> linarith) mass
      (fun v => decide (v 0 * y1 ≤ v 1 * x ∧ v 0 * y2 ≥ v 1 * x ∧ v 2 ≤ z * (1 - v 0 / x))) (by
      intro v hv
      have g0 := hv 0
      have g1 := hv 1
      have g2 := hv 2
      simp only [Matrix.cons_val] at g0 g1 g2
      rw [abs_lt] at g0 g1 g2
      have hx0 : 0 < v 0 := by linarith [g0.1]
      have hy0 : 0 < v 1 := by linarith [g1.1]
      have hm2 : v 0 * max 0 y1 ≤ v 1 * x ↔ v 0 * y1 ≤ v 1 * x := by
        rw [mul_max_of_nonneg _ _ hx0.le, mul_zero, max_le_iff]
        have : 0 ≤ v 1 * x := by positivity
        tauto
      have hm3 : v 2 ≤ z * (1 - v 0 / x) ↔ v 0 * z + v 2 * x ≤ x * z := by
        have e : z * (1 - v 0 / x) = (x * z - v 0 * z) / x := by field_simp
        rw [e, le_div_iff₀ hx]
        constructor <;> intro h <;> linarith
      rw [decide_eq_true_iff, hmem, hm2, hm3]
      have := hx0.le
      have : 0 ≤ v 2 := by linarith [g2.1]
      tauto)
    (fun n => mass / (z * (y2 - y1) * x / 6) * (x / n.1 * ((max 0 y2 - min 0 y1) / n.2.1) * (z / n.2.2) / 2)) (by
      intro n a b c
      have : (0 : ℝ) < n.1 := by exact_mod_cast a
      have : (0 : ℝ) < n.2.1 := by exact_mod_cast b
      have : (0 : ℝ) < n.2.2 := by exact_mod_cast c
      refine mul_ne_zero (div_ne_zero hm hden) ?_
      positivity)).2
  refine h.congr' ?_
  filter_upwards [ev3] with n hn
  rw [Shp.tetrahedron, if_neg (not_lt.2 h12.le), if_neg (by push Not; exact ⟨hn.2.2.ne', hn.1.ne', hden⟩)]
  rfl

/-- For `0 <= y1` this is the whole tetrahedron. -/
theorem C84_tetrahedron (mass x y1 y2 z : ℝ) (hm : mass ≠ 0) (hx : 0 < x) (h1 : 0 ≤ y1) (h12 : y1 < y2) (hz : 0 < z) :
    Approximates atTop (fun n : ℕ × ℕ × ℕ => Shp.tetrahedron mass x y1 y2 z n.1 n.2.1 n.2.2) mass
      (coneOver z (triangle (x, y1) (x, y2))) := by
  have h := C84_tetrahedron_upper mass x y1 y2 z hm hx h12 (by linarith) hz
  rwa [max_eq_right h1] at h

/-! ## Instances: the hypotheses of C84 hold for ordinary shapes -/

example : Approximates atTop (fun n : ℕ × ℕ => Shp.annulus 2 1 3 5 n.1 n.2) 2 (prism 5 (sector 1 3 0 Real.pi)) :=
  C84_annulus 2 1 3 5 (by norm_num) (by norm_num) (by norm_num) (by norm_num)

example : Approximates atTop (fun n : ℕ × ℕ => Shp.wedge 2 1 3 5 (Real.pi / 4) n.1 n.2) 2
    (prism 5 (sector 1 3 0 (Real.pi / 4))) :=
  C84_wedge 2 1 3 5 _ (by norm_num) (by norm_num) (by norm_num) (by norm_num) (by positivity) (by linarith [Real.pi_pos])

example : Approximates atTop (fun n : ℕ × ℕ => Shp.cone 2 1 3 (3 * Real.pi / 4) n.1 n.2) 2
    (coneOver 3 (sector 0 1 0 (3 * Real.pi / 4))) :=
  C84_cone 2 1 3 _ (by norm_num) (by norm_num) (by norm_num) (by positivity) (by linarith [Real.pi_pos])

example : Approximates atTop (fun n : ℕ × ℕ => outerCone 2 1 3 5 (Real.pi / 4) n.1 n.2) 2
    (annularCone 1 3 5 (Real.pi / 4)) :=
  C84_outer_cone 2 1 3 5 _ (by norm_num) (by norm_num) (by norm_num) (by norm_num) (by positivity)
    (by linarith [Real.pi_pos])

example : Approximates atTop (fun n : ℕ × ℕ => Shp.trapezoid 2 1 3 5 (Real.pi / 4) n.1 n.2) 2
    (trapezoidSlab 1 3 5 (Real.pi / 4)) :=
  C84_trapezoid 2 1 3 5 _ (by norm_num) (by norm_num) (by norm_num) (by norm_num) (by positivity)
    (by linarith [Real.pi_pos])

example : Approximates atTop (fun n : ℕ × ℕ => cylhole 2 1 3 n.1 n.2) 2 (drilledCylinder 1 3) :=
  C84_cylhole 2 1 3 (by norm_num) (by norm_num) (by norm_num)

example : Approximates atTop (fun n : ℕ × ℕ × ℕ => Shp.triPrism 2 1 (-1) 2 5 n.1 n.2.1 n.2.2) 2
    (prism 5 (triangle (1, max 0 (-1)) (1, 2))) :=
  C84_tri_prism_upper 2 1 (-1) 2 5 (by norm_num) (by norm_num) (by norm_num) (by norm_num) (by norm_num)

example : Approximates atTop (fun n : ℕ × ℕ × ℕ => Shp.tetrahedron 2 1 1 2 5 n.1 n.2.1 n.2.2) 2
    (coneOver 5 (triangle (1, 1) (1, 2))) :=
  C84_tetrahedron 2 1 1 2 5 (by norm_num) (by norm_num) (by norm_num) (by norm_num) (by norm_num)

end Newt
