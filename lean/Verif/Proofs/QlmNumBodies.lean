import Verif.Proofs.QlmNum

/-! # The solids of `newt/qlmNum.py` and `newt/bigQlmNum.py` in cylindrical coordinates -/

namespace Newt

open MeasureTheory Spec

theorem measurable_xy : Measurable fun v : V3 => ((v 0, v 1) : ℝ × ℝ) :=
  (measurable_pi_apply 0).prodMk (measurable_pi_apply 1)

theorem slab_meas (h1 h2 : ℝ) (B : Set (ℝ × ℝ)) (hB : MeasurableSet B) : MeasurableSet (slab h1 h2 B) := by
  have e : slab h1 h2 B = ({v : V3 | h1 ≤ v 2} ∩ {v : V3 | v 2 ≤ h2}) ∩ (fun v : V3 => ((v 0, v 1) : ℝ × ℝ)) ⁻¹' B := by
    ext v; simp [slab, and_assoc]
  rw [e]
  exact ((measurableSet_le measurable_const (measurable_pi_apply 2)).inter
    (measurableSet_le (measurable_pi_apply 2) measurable_const)).inter (measurable_xy hB)

theorem mem_slab (h1 h2 : ℝ) (B : Set (ℝ × ℝ)) (x y z : ℝ) :
    ![x, y, z] ∈ slab h1 h2 B ↔ h1 ≤ z ∧ z ≤ h2 ∧ (x, y) ∈ B := Iff.rfl

theorem abs_le_max (h1 h2 z : ℝ) (ha : h1 ≤ z) (hb : z ≤ h2) : |z| ≤ max |h1| |h2| := by
  rw [abs_le]
  constructor
  · have := neg_abs_le h1
    have := le_max_left |h1| |h2|
    linarith
  · have := le_abs_self h2
    have := le_max_right |h1| |h2|
    linarith

theorem sector_mirror (Ri Ro phih x y : ℝ) : (x, -y) ∈ sector Ri Ro 0 phih ↔ (x, y) ∈ sector Ri Ro 0 phih := by
  have key : ∀ x y : ℝ, (x, y) ∈ sector Ri Ro 0 phih → (x, -y) ∈ sector Ri Ro 0 phih := by
    rintro x y ⟨r, t, h1, h2, h3, h4, h5, h6⟩
    refine ⟨r, -t, h1, h2, by linarith, by linarith, ?_, ?_⟩
    · rw [Real.cos_neg]; exact h5
    · rw [Real.sin_neg]; simp only at h6 ⊢; rw [h6]; ring
  refine ⟨fun h => ?_, key x y⟩
  have := key x (-y) h
  rwa [neg_neg] at this

theorem sector_sq (Ri Ro phic phih : ℝ) (hRi : 0 ≤ Ri) (p : ℝ × ℝ) (hp : p ∈ sector Ri Ro phic phih) :
    Ri ^ 2 ≤ p.1 ^ 2 + p.2 ^ 2 ∧ p.1 ^ 2 + p.2 ^ 2 ≤ Ro ^ 2 := by
  obtain ⟨r, t, h1, h2, -, -, h5, h6⟩ := hp
  have e : p.1 ^ 2 + p.2 ^ 2 = r ^ 2 := by
    rw [h5, h6]; nlinarith [Real.sin_sq_add_cos_sq t]
  rw [e]
  constructor <;> nlinarith

theorem slab_sector_body (phih IR OR h1 h2 : ℝ) (h0 : 0 < phih) (hpi : phih ≤ Real.pi) (hI : 0 ≤ IR) (hO : IR ≤ OR)
    (hh : h1 ≤ h2) :
    CylBody (slab h1 h2 (sector IR OR 0 phih)) phih (fun _ => IR) (fun _ => OR) (fun _ _ => h1) (fun _ _ => h2) where
  meas := slab_meas _ _ _ (sector_compact _ _ _ _).measurableSet
  mirror x y z := by rw [mem_slab, mem_slab, sector_mirror]
  bounded := ⟨OR, max |h1| |h2|, by linarith, le_max_of_le_left (abs_nonneg _), fun v hv =>
    ⟨(sector_sq IR OR 0 phih hI _ hv.2.2).2, abs_le_max h1 h2 _ hv.1 hv.2.1⟩⟩
  h0 := h0.le
  hpi := hpi
  ha _ _ _ := hI
  hab _ _ _ := hO
  hqs _ _ _ _ _ _ := hh
  hiff t r z hr ht1 ht2 := by
    rw [mem_slab, mem_sector IR OR phih hI hpi r t hr ht1 ht2]
    simp only [Set.mem_prod, Set.mem_Icc]
    tauto

theorem coneSection_mirror (phih IR OR H : ℝ) : MirrorY (coneSection phih IR OR H) := by
  have key : ∀ x y z : ℝ, ![x, y, z] ∈ coneSection phih IR OR H → ![x, -y, z] ∈ coneSection phih IR OR H := by
    rintro x y z ⟨r, t, h1, h2, h3, h4, h5, h6, h7, h8⟩
    refine ⟨r, -t, h1, h2, by linarith, by linarith, ?_, ?_, h7, h8⟩
    · rw [Real.cos_neg]; exact h5
    · rw [Real.sin_neg]
      have h6' : y = r * Real.sin t := h6
      show -y = r * -Real.sin t
      rw [h6']; ring
  intro x y z
  refine ⟨fun h => ?_, key x y z⟩
  have := key x (-y) z h
  rwa [neg_neg] at this

theorem coneSection_meas (phih IR OR H : ℝ) (hO : IR < OR) : MeasurableSet (coneSection phih IR OR H) := by
  have hK : IsCompact {w : ℝ × ℝ × ℝ | (IR ≤ w.1 ∧ w.1 ≤ OR) ∧ (-phih ≤ w.2.1 ∧ w.2.1 ≤ phih) ∧
      (0 ≤ w.2.2 ∧ w.2.2 * (OR - IR) ≤ H * (OR - w.1))} := by
    have hc : IsClosed {w : ℝ × ℝ × ℝ | (IR ≤ w.1 ∧ w.1 ≤ OR) ∧ (-phih ≤ w.2.1 ∧ w.2.1 ≤ phih) ∧
      (0 ≤ w.2.2 ∧ w.2.2 * (OR - IR) ≤ H * (OR - w.1))} := by
      have h1 : IsClosed {w : ℝ × ℝ × ℝ | IR ≤ w.1} := isClosed_le (by fun_prop) (by fun_prop)
      have h2 : IsClosed {w : ℝ × ℝ × ℝ | w.1 ≤ OR} := isClosed_le (by fun_prop) (by fun_prop)
      have h3 : IsClosed {w : ℝ × ℝ × ℝ | -phih ≤ w.2.1} := isClosed_le (by fun_prop) (by fun_prop)
      have h4 : IsClosed {w : ℝ × ℝ × ℝ | w.2.1 ≤ phih} := isClosed_le (by fun_prop) (by fun_prop)
      have h5 : IsClosed {w : ℝ × ℝ × ℝ | 0 ≤ w.2.2} := isClosed_le (by fun_prop) (by fun_prop)
      have h6 : IsClosed {w : ℝ × ℝ × ℝ | w.2.2 * (OR - IR) ≤ H * (OR - w.1)} := isClosed_le (by fun_prop) (by fun_prop)
      exact (h1.inter h2).inter ((h3.inter h4).inter (h5.inter h6))
    refine (isCompact_Icc (a := IR) (b := OR)).prod ((isCompact_Icc (a := -phih) (b := phih)).prod
      (isCompact_Icc (a := (0 : ℝ)) (b := |H|))) |>.of_isClosed_subset hc ?_
    rintro ⟨r, t, z⟩ ⟨⟨h1, h2⟩, h3, h4, h5⟩
    simp only at h1 h2 h3 h4 h5
    refine ⟨⟨h1, h2⟩, h3, h4, ?_⟩
    have hd : 0 < OR - IR := by linarith
    have h6 : H * (OR - r) ≤ |H| * (OR - IR) :=
      mul_le_mul (le_abs_self H) (by linarith) (by linarith) (abs_nonneg _)
    exact le_of_mul_le_mul_right (h5.trans h6) hd
  have himg := hK.image (f := fun w : ℝ × ℝ × ℝ => (![w.1 * Real.cos w.2.1, w.1 * Real.sin w.2.1, w.2.2] : V3))
    (by
      refine continuous_pi fun i => ?_
      fin_cases i <;> simp <;> fun_prop)
  convert himg.measurableSet using 1
  ext v
  simp only [coneSection, Set.mem_setOf_eq, Set.mem_image, Prod.exists]
  constructor
  · rintro ⟨r, t, h1, h2, h3, h4, h5, h6, h7, h8⟩
    refine ⟨r, t, v 2, ⟨⟨h1, h2⟩, ⟨h3, h4⟩, h7, h8⟩, ?_⟩
    rw [← h5, ← h6, vec_eta]
  · rintro ⟨r, t, z, ⟨⟨h1, h2⟩, ⟨h3, h4⟩, h7, h8⟩, rfl⟩
    exact ⟨r, t, h1, h2, h3, h4, rfl, rfl, h7, h8⟩

theorem coneSection_body (phih IR OR H : ℝ) (h0 : 0 < phih) (hpi : phih ≤ Real.pi) (hI : 0 ≤ IR) (hO : IR < OR) (hH : 0 < H) :
    CylBody (coneSection phih IR OR H) phih (fun _ => IR) (fun _ => OR) (fun _ _ => 0) (QlmNum.coneZ H IR OR) where
  meas := coneSection_meas phih IR OR H hO
  mirror := coneSection_mirror phih IR OR H
  bounded := by
    refine ⟨OR, H, by linarith, hH.le, ?_⟩
    rintro v ⟨r, t, h1, h2, h3, h4, h5, h6, h7, h8⟩
    constructor
    · rw [h5, h6]
      have e : (r * Real.cos t) ^ 2 + (r * Real.sin t) ^ 2 = r ^ 2 := by
        linear_combination r ^ 2 * Real.sin_sq_add_cos_sq t
      rw [e]; exact pow_le_pow_left₀ (by linarith) h2 2
    · rw [abs_of_nonneg h7]
      nlinarith
  h0 := h0.le
  hpi := hpi
  ha _ _ _ := hI
  hab _ _ _ := hO.le
  hqs _ r _ _ _ h := by
    rw [QlmNum.coneZ]
    exact div_nonneg (mul_nonneg hH.le (by linarith)) (by linarith)
  hiff t r z hr ht1 ht2 := by
    have hd : 0 < OR - IR := by linarith
    rw [QlmNum.coneZ, le_div_iff₀ hd]
    constructor
    · rintro ⟨r', t', h1, h2, h3, h4, h5, h6, h7, h8⟩
      obtain ⟨rfl, rfl⟩ := polar_unique r r' t t' hr (by linarith) ht1 ht2 (by linarith) (by linarith) h5 h6
      exact ⟨⟨h3, h4⟩, ⟨h1, h2⟩, h7, h8⟩
    · rintro ⟨⟨h3, h4⟩, ⟨h1, h2⟩, h7, h8⟩
      exact ⟨r, t, h1, h2, h3, h4, rfl, rfl, h7, h8⟩

theorem trapezoid_closed (phih IR OR : ℝ) : IsClosed (radialTrapezoid phih IR OR) := by
  have h1 : IsClosed {p : ℝ × ℝ | IR * Real.cos phih ≤ p.1} := isClosed_le (by fun_prop) (by fun_prop)
  have h2 : IsClosed {p : ℝ × ℝ | p.1 ≤ OR * Real.cos phih} := isClosed_le (by fun_prop) (by fun_prop)
  have h3 : IsClosed {p : ℝ × ℝ | |p.2| * Real.cos phih ≤ p.1 * Real.sin phih} :=
    isClosed_le (by fun_prop) (by fun_prop)
  exact h1.inter (h2.inter h3)

theorem trap_angle (phih t : ℝ) (h0 : 0 < phih) (h2 : phih < Real.pi / 2) (ht1 : -Real.pi < t) (ht2 : t < Real.pi) :
    |Real.sin t| * Real.cos phih ≤ Real.cos t * Real.sin phih ↔ -phih ≤ t ∧ t ≤ phih := by
  have hp := Real.pi_pos
  have habs : |t| < Real.pi := abs_lt.2 ⟨ht1, ht2⟩
  have e1 : |Real.sin t| = Real.sin |t| := by
    rcases le_total 0 t with h | h
    · rw [abs_of_nonneg h, abs_of_nonneg (Real.sin_nonneg_of_nonneg_of_le_pi h ht2.le)]
    · have : 0 ≤ Real.sin (-t) := Real.sin_nonneg_of_nonneg_of_le_pi (by linarith) (by linarith)
      rw [abs_of_nonpos h]
      rw [Real.sin_neg] at this ⊢
      exact abs_of_nonpos (by linarith)
  have e2 := Real.sin_sub |t| phih
  rw [Real.cos_abs] at e2
  rw [e1, ← abs_le]
  constructor
  · intro h
    by_contra hc
    push Not at hc
    have : 0 < Real.sin (|t| - phih) := Real.sin_pos_of_pos_of_lt_pi (by linarith) (by linarith)
    linarith
  · intro h
    have : Real.sin (|t| - phih) ≤ 0 :=
      Real.sin_nonpos_of_nonpos_of_neg_pi_le (by linarith) (by linarith [abs_nonneg t])
    linarith

theorem slab_trapezoid_body (phih IR OR h1 h2 : ℝ) (h0 : 0 < phih) (hp2 : phih < Real.pi / 2) (hI : 0 ≤ IR) (hO : IR ≤ OR)
    (hh : h1 ≤ h2) :
    CylBody (slab h1 h2 (radialTrapezoid phih IR OR)) phih (QlmNum.trapR IR phih) (QlmNum.trapR OR phih)
      (fun _ _ => h1) (fun _ _ => h2) := by
  have hp := Real.pi_pos
  have hc : 0 < Real.cos phih := Real.cos_pos_of_mem_Ioo ⟨by linarith, hp2⟩
  have hct : ∀ t, -phih ≤ t → t ≤ phih → 0 < Real.cos t := fun t h1 h2 =>
    Real.cos_pos_of_mem_Ioo ⟨by linarith, by linarith⟩
  refine ⟨slab_meas _ _ _ (trapezoid_closed _ _ _).measurableSet, ?_, ?_, h0.le, by linarith, ?_, ?_, ?_, ?_⟩
  · intro x y z
    rw [mem_slab, mem_slab]
    simp only [radialTrapezoid, Set.mem_setOf_eq, abs_neg]
  · refine ⟨OR, max |h1| |h2|, by linarith, le_max_of_le_left (abs_nonneg _), fun v hv =>
      ⟨?_, abs_le_max h1 h2 _ hv.1 hv.2.1⟩⟩
    obtain ⟨a1, a2, a3⟩ := hv.2.2
    simp only at a1 a2 a3
    have x0 : 0 ≤ v 0 := (mul_nonneg hI hc.le).trans a1
    have e := Real.sin_sq_add_cos_sq phih
    have b1 : (|v 1| * Real.cos phih) ^ 2 ≤ (v 0 * Real.sin phih) ^ 2 :=
      pow_le_pow_left₀ (by positivity) a3 2
    have b2 : v 0 ^ 2 ≤ (OR * Real.cos phih) ^ 2 := pow_le_pow_left₀ x0 a2 2
    rw [mul_pow, sq_abs, mul_pow] at b1
    rw [mul_pow] at b2
    have hc2 : 0 < Real.cos phih ^ 2 := by positivity
    have : (v 0 ^ 2 + v 1 ^ 2) * Real.cos phih ^ 2 ≤ OR ^ 2 * Real.cos phih ^ 2 := by nlinarith
    exact le_of_mul_le_mul_right this hc2
  · intro t a1 a2
    exact div_nonneg (mul_nonneg hI hc.le) (hct t a1 a2).le
  · intro t a1 a2
    have := hct t a1 a2
    unfold QlmNum.trapR
    gcongr
  · intros; exact hh
  · intro t r z hr ht1 ht2
    rw [mem_slab]
    simp only [radialTrapezoid, Set.mem_setOf_eq]
    have key := trap_angle phih t h0 hp2 ht1 ht2
    have e : |r * Real.sin t| * Real.cos phih ≤ r * Real.cos t * Real.sin phih ↔ -phih ≤ t ∧ t ≤ phih := by
      rw [← key, abs_mul, abs_of_pos hr, mul_assoc, mul_assoc]
      exact mul_le_mul_iff_right₀ hr
    rw [e]
    constructor
    · rintro ⟨a1, a2, a3, a4, a5⟩
      have := hct t a5.1 a5.2
      rw [QlmNum.trapR, QlmNum.trapR, div_le_iff₀ this, le_div_iff₀ this]
      exact ⟨a5, ⟨a3, a4⟩, a1, a2⟩
    · rintro ⟨a5, ⟨a3, a4⟩, a1, a2⟩
      have := hct t a5.1 a5.2
      rw [QlmNum.trapR, div_le_iff₀ this] at a3
      rw [QlmNum.trapR, le_div_iff₀ this] at a4
      exact ⟨a1, a2, a3, a4, a5⟩

/-! ## Distance from the origin -/

theorem sector_le_modulus (IR OR phih h1 h2 : ℝ) (hI : 0 ≤ IR) (v : V3) (hv : v ∈ slab h1 h2 (sector IR OR 0 phih)) :
    IR ≤ modulus v := by
  have := (sector_sq IR OR 0 phih hI _ hv.2.2).1
  simp only at this
  rw [modulus]
  apply Real.le_sqrt_of_sq_le
  nlinarith [sq_nonneg (v 2)]

theorem abs_z_le_modulus (v : V3) : |v 2| ≤ modulus v := by
  rw [modulus, ← Real.sqrt_sq_eq_abs]
  apply Real.sqrt_le_sqrt
  nlinarith [sq_nonneg (v 0), sq_nonneg (v 1)]

theorem slab_off (h1 h2 : ℝ) (B : Set (ℝ × ℝ)) (hh : ¬ (h1 ≤ 0 ∧ 0 ≤ h2)) (v : V3) (hle : h1 ≤ h2)
    (hv : v ∈ slab h1 h2 B) : min |h1| |h2| ≤ modulus v ∧ 0 < min |h1| |h2| := by
  have hz := abs_z_le_modulus v
  have a1 := hv.1
  have a2 := hv.2.1
  by_cases h : h1 ≤ 0
  · have h2n : h2 < 0 := by
      by_contra hc
      exact hh ⟨h, by linarith⟩
    refine ⟨(min_le_right _ _).trans (le_trans ?_ hz), lt_min (abs_pos.2 (by linarith)) (abs_pos.2 h2n.ne)⟩
    rw [abs_of_neg h2n, abs_of_neg (by linarith)]; linarith
  · push Not at h
    refine ⟨(min_le_left _ _).trans (le_trans ?_ hz), lt_min (abs_pos.2 h.ne') (abs_pos.2 (by linarith))⟩
    rw [abs_of_pos h, abs_of_pos (by linarith)]; linarith

theorem coneSection_le_modulus (phih IR OR H : ℝ) (hI : 0 ≤ IR) (v : V3) (hv : v ∈ coneSection phih IR OR H) :
    IR ≤ modulus v := by
  obtain ⟨r, t, h1, h2, h3, h4, h5, h6, h7, h8⟩ := hv
  rw [modulus]
  apply Real.le_sqrt_of_sq_le
  rw [h5, h6]
  have e : (r * Real.cos t) ^ 2 + (r * Real.sin t) ^ 2 = r ^ 2 := by
    linear_combination r ^ 2 * Real.sin_sq_add_cos_sq t
  have : IR ^ 2 ≤ r ^ 2 := pow_le_pow_left₀ hI h1 2
  nlinarith [sq_nonneg (v 2)]

theorem trapezoid_le_modulus (phih IR OR h1 h2 : ℝ) (hI : 0 ≤ IR) (hc : 0 ≤ Real.cos phih) (v : V3)
    (hv : v ∈ slab h1 h2 (radialTrapezoid phih IR OR)) : IR * Real.cos phih ≤ modulus v := by
  have h := hv.2.2.1
  simp only at h
  rw [modulus]
  apply Real.le_sqrt_of_sq_le
  have : (IR * Real.cos phih) ^ 2 ≤ v 0 ^ 2 := pow_le_pow_left₀ (mul_nonneg hI hc) h 2
  nlinarith [sq_nonneg (v 1), sq_nonneg (v 2)]

end Newt
