import Verif.Proofs.QlmCyl
import Verif.Proofs.QlmShapes2
import Verif.Props.Shapes

/-! # Cutting uniform solids into pieces -/

namespace Newt

open MeasureTheory Finset Spec

theorem uniform_dissect {ι : Type} (s : Finset ι) (S : Set V3) (T : ι → Set V3) (mass : ℝ) (mu : ι → ℝ)
    (hS : (volume S).toReal ≠ 0) (hT : ∀ i ∈ s, (volume (T i)).toReal ≠ 0)
    (hmu : ∀ i ∈ s, mu i * (volume S).toReal = mass * (volume (T i)).toReal)
    (h : ∀ l m : ℕ, m ≤ l → ∫ v in S, solidS l m v = ∑ i ∈ s, ∫ v in T i, solidS l m v) (l : ℕ) (m : ℤ) :
    uniformMoment mass S l m = ∑ i ∈ s, uniformMoment (mu i) (T i) l m := by
  have key : ∀ m : ℕ, uniformMoment mass S l m = ∑ i ∈ s, uniformMoment (mu i) (T i) l m := by
    intro m
    by_cases hm : m ≤ l
    · simp only [uniformMoment]
      rw [h l m hm, mul_sum]
      refine sum_congr rfl fun i hi => ?_
      have : mass / (volume S).toReal = mu i / (volume (T i)).toReal := by
        rw [div_eq_div_iff hS (hT i hi), hmu i hi]
      rw [this]
    · rw [uniformMoment_out _ _ _ _ (by omega)]
      exact (sum_eq_zero fun i _ => uniformMoment_out _ _ _ _ (by omega)).symm
  obtain ⟨k, rfl | rfl⟩ := Int.eq_nat_or_neg m
  · exact key k
  · rw [uniformMoment_neg, key k, map_sum, mul_sum]
    exact sum_congr rfl fun i _ => (uniformMoment_neg _ _ _ _).symm

theorem pm_vol {B : Set (ℝ × ℝ)} {x : ℝ} (h : pm B 0 0 = (x : ℂ)) : (volume B).toReal = x := by
  rw [pm_zero] at h; exact_mod_cast h

theorem prism_dissect {ι : Type} (s : Finset ι) (H : ℝ) (hH : 0 < H) (B : Set (ℝ × ℝ)) (C : ι → Set (ℝ × ℝ)) (mass : ℝ) (mu : ι → ℝ)
    (hB : IsCompact B) (hC : ∀ i ∈ s, IsCompact (C i)) (hB0 : (volume B).toReal ≠ 0) (hC0 : ∀ i ∈ s, (volume (C i)).toReal ≠ 0)
    (hmu : ∀ i ∈ s, mu i * (volume B).toReal = mass * (volume (C i)).toReal)
    (h : ∀ m k : ℕ, pm B m k = ∑ i ∈ s, pm (C i) m k) (l : ℕ) (m : ℤ) :
    uniformMoment mass (prism H B) l m = ∑ i ∈ s, uniformMoment (mu i) (prism H (C i)) l m := by
  apply uniform_dissect
  · rw [prism_vol H hH]; exact mul_ne_zero hH.ne' hB0
  · intro i hi; rw [prism_vol H hH]; exact mul_ne_zero hH.ne' (hC0 i hi)
  · intro i hi; rw [prism_vol H hH, prism_vol H hH]; linear_combination H * hmu i hi
  · intro l m hm
    rw [prism_int H hH B hB l m hm]
    have e : ∑ i ∈ s, ∫ v in prism H (C i), solidS l m v = ∑ i ∈ s, ∑ k ∈ range ((l - m) / 2 + 1),
        ((Nlm l m * rc l m k : ℝ) : ℂ) * (((zint H (l - m - 2 * k) : ℝ) : ℂ) * pm (C i) m k) :=
      sum_congr rfl fun i hi => prism_int H hH _ (hC i hi) l m hm
    rw [e, sum_comm]
    refine sum_congr rfl fun k _ => ?_
    rw [h m k, mul_sum, mul_sum]

theorem cone_dissect {ι : Type} (s : Finset ι) (P : ℝ) (hP : 0 < P) (B : Set (ℝ × ℝ)) (C : ι → Set (ℝ × ℝ)) (mass : ℝ) (mu : ι → ℝ)
    (hB : IsCompact B) (hC : ∀ i ∈ s, IsCompact (C i)) (hB0 : (volume B).toReal ≠ 0) (hC0 : ∀ i ∈ s, (volume (C i)).toReal ≠ 0)
    (hmu : ∀ i ∈ s, mu i * (volume B).toReal = mass * (volume (C i)).toReal)
    (h : ∀ m k : ℕ, pm B m k = ∑ i ∈ s, pm (C i) m k) (l : ℕ) (m : ℤ) :
    uniformMoment mass (coneOver P B) l m = ∑ i ∈ s, uniformMoment (mu i) (coneOver P (C i)) l m := by
  apply uniform_dissect
  · rw [cone_vol P hP B hB]; exact mul_ne_zero (by positivity) hB0
  · intro i hi; rw [cone_vol P hP _ (hC i hi)]; exact mul_ne_zero (by positivity) (hC0 i hi)
  · intro i hi; rw [cone_vol P hP _ (hC i hi), cone_vol P hP B hB]; linear_combination P / 3 * hmu i hi
  · intro l m hm
    rw [cone_int P hP B hB l m hm]
    have e : ∑ i ∈ s, ∫ v in coneOver P (C i), solidS l m v = ∑ i ∈ s, ∑ k ∈ range ((l - m) / 2 + 1),
        ((Nlm l m * rc l m k : ℝ) : ℂ) * (((bint P (l - m - 2 * k) (m + 2 * k + 2) : ℝ) : ℂ) * pm (C i) m k) :=
      sum_congr rfl fun i hi => cone_int P hP _ (hC i hi) l m hm
    rw [e, sum_comm]
    refine sum_congr rfl fun k _ => ?_
    rw [h m k, mul_sum, mul_sum]

/-! ## Areas -/

theorem vol_sector {Ri Ro phic phih : ℝ} (hRi : 0 ≤ Ri) (hRo : Ri ≤ Ro) (h0 : 0 ≤ phih) (hh : phih ≤ Real.pi) :
    (volume (sector Ri Ro phic phih)).toReal = (Ro ^ 2 - Ri ^ 2) * phih := by
  apply pm_vol
  rw [pm_sector Ri Ro phic phih hRi hRo h0 hh]
  simp [Qlm.phase, Qlm.sinc]
  ring

theorem vol_triangle {d y1 y2 : ℝ} (hd : 0 < d) (hy : y1 ≤ y2) :
    (volume (triangle (d, y1) (d, y2))).toReal = d / 2 * (y2 - y1) := by
  apply pm_vol
  rw [pm_triangle_pos d y1 y2 hd hy, tint_zero]
  push_cast; simp

theorem vol_rotated' (phi : ℝ) (B : Set (ℝ × ℝ)) : (volume (rotated phi B)).toReal = (volume B).toReal := by
  rw [vol_rotated]

theorem vol_rectangle {a b : ℝ} (ha : 0 < a) (hb : 0 < b) : (volume (rectangle a b)).toReal = a * b :=
  pm_vol (vol_rect a b ha hb)

/-! ## Sectors -/

theorem pm_sector_radii {Ri Rm Ro phic phih : ℝ} (hRi : 0 ≤ Ri) (h1 : Ri ≤ Rm) (h2 : Rm ≤ Ro) (h0 : 0 ≤ phih) (hh : phih ≤ Real.pi)
    (m k : ℕ) : pm (sector Ri Ro phic phih) m k = pm (sector Ri Rm phic phih) m k + pm (sector Rm Ro phic phih) m k := by
  rw [pm_sector _ _ _ _ hRi (h1.trans h2) h0 hh, pm_sector _ _ _ _ hRi h1 h0 hh, pm_sector _ _ _ _ (hRi.trans h1) h2 h0 hh]
  push_cast; ring

/-- `h sinc (m h)` as an integral of the phase. -/
theorem sinc_phase (m : ℕ) (c h : ℝ) :
    Qlm.phase m c * ((2 * h * Qlm.sinc (m * h) : ℝ) : ℂ) = ∫ t in (c - h)..(c + h), Complex.exp (-Complex.I * m * t) := by
  rcases Nat.eq_zero_or_pos m with rfl | hm
  · simp [Qlm.phase, Qlm.sinc]; ring
  have hm0 : (m : ℂ) ≠ 0 := by exact_mod_cast hm.ne'
  have hi : (-Complex.I * m : ℂ) ≠ 0 := mul_ne_zero (by simp) hm0
  rw [integral_exp_mul_complex hi]
  have e1 : -Complex.I * m * ((c + h : ℝ) : ℂ) = -Complex.I * m * c + -(m * h) * Complex.I := by push_cast; ring
  have e2 : -Complex.I * m * ((c - h : ℝ) : ℂ) = -Complex.I * m * c + (m * h) * Complex.I := by push_cast; ring
  rw [e1, e2, Complex.exp_add, Complex.exp_add, Complex.exp_mul_I, Complex.exp_mul_I, Complex.cos_neg, Complex.sin_neg]
  have e3 : ((2 * h * Qlm.sinc (m * h) : ℝ) : ℂ) = 2 * Complex.sin (m * h) / m := by
    rw [Qlm.sinc]
    split_ifs with h0
    · have h00 : h = 0 := by
        rcases mul_eq_zero.1 h0 with h' | h'
        · exact absurd (by exact_mod_cast h') hm.ne'
        · exact h'
      subst h00; simp
    · have hh : (h : ℂ) ≠ 0 := by
        intro h'; apply h0; rw [show h = 0 by exact_mod_cast h']; simp
      push_cast
      field_simp
  rw [e3, Qlm.phase, eq_div_iff hi]
  have hI := Complex.I_mul_I
  field_simp
  ring

theorem pm_sector_angles {Ri Ro c h1 h2 : ℝ} (hRi : 0 ≤ Ri) (hRo : Ri ≤ Ro) (h10 : 0 ≤ h1) (h20 : 0 ≤ h2) (hh : h1 + h2 ≤ Real.pi)
    (m k : ℕ) : pm (sector Ri Ro c (h1 + h2)) m k = pm (sector Ri Ro (c - h2) h1) m k + pm (sector Ri Ro (c + h1) h2) m k := by
  rw [pm_sector _ _ _ _ hRi hRo (by linarith) hh, pm_sector _ _ _ _ hRi hRo h10 (by linarith), pm_sector _ _ _ _ hRi hRo h20 (by linarith)]
  have r : ∀ a b c : ℂ, a * (b * c) = b * (a * c) := fun a b c => by ring
  rw [r, r (Qlm.phase m (c - h2)), r (Qlm.phase m (c + h1)), sinc_phase, sinc_phase, sinc_phase, ← mul_add]
  have hc : ∀ a b : ℝ, IntervalIntegrable (fun t : ℝ => Complex.exp (-Complex.I * m * t)) volume a b :=
    fun a b => (by fun_prop : Continuous fun t : ℝ => Complex.exp (-Complex.I * m * t)).intervalIntegrable a b
  rw [show c - h2 - h1 = c - (h1 + h2) by ring, show c + h1 - h2 = c - h2 + h1 by ring,
    show c + h1 + h2 = c + (h1 + h2) by ring, intervalIntegral.integral_add_adjacent_intervals (hc _ _) (hc _ _)]

/-! ## Triangles and rectangles -/

theorem tint_split (d y1 y2 y3 : ℝ) (m k : ℕ) : tint d y1 y3 m k = tint d y1 y2 m k + tint d y2 y3 m k := by
  have hc : ∀ a b : ℝ, IntervalIntegrable (fun y : ℝ => pmf m k (d, y)) volume a b := fun a b =>
    ((pmf_continuous m k).comp (by fun_prop : Continuous fun y : ℝ => ((d, y) : ℝ × ℝ))).intervalIntegrable a b
  rw [tint, tint, tint, intervalIntegral.integral_add_adjacent_intervals (hc _ _) (hc _ _)]

theorem pm_triangle_split {d y1 y2 y3 : ℝ} (hd : 0 < d) (h1 : y1 ≤ y2) (h2 : y2 ≤ y3) (m k : ℕ) :
    pm (triangle (d, y1) (d, y3)) m k = pm (triangle (d, y1) (d, y2)) m k + pm (triangle (d, y2) (d, y3)) m k := by
  rw [pm_triangle_pos _ _ _ hd (h1.trans h2), pm_triangle_pos _ _ _ hd h1, pm_triangle_pos _ _ _ hd h2, tint_split d y1 y2 y3]
  ring

theorem mem_tri_sym {d w : ℝ} (hd : 0 < d) (hw : 0 ≤ w) (x y : ℝ) :
    (x, y) ∈ triangle (d, -w) (d, w) ↔ 0 ≤ x ∧ x ≤ d ∧ |y| * d ≤ w * x := by
  rw [mem_triangle d (-w) w hd (by linarith)]
  constructor
  · rintro ⟨s, h0, h1, rfl, h3, h4⟩
    refine ⟨by positivity, by nlinarith, ?_⟩
    have : |y| ≤ s * w := abs_le.2 ⟨by linarith, h4⟩
    nlinarith
  · rintro ⟨h0, h1, h2⟩
    have hy : |y| ≤ x / d * w := by
      rw [div_mul_eq_mul_div, le_div_iff₀ hd]; linarith
    obtain ⟨h3, h4⟩ := abs_le.1 hy
    exact ⟨x / d, by positivity, (div_le_one hd).2 h1, by field_simp, by linarith, h4⟩

theorem mem_rotated (phi x y : ℝ) (B : Set (ℝ × ℝ)) :
    (x, y) ∈ rotated phi B ↔ (x * Real.cos phi + y * Real.sin phi, y * Real.cos phi - x * Real.sin phi) ∈ B := by
  have hs := Real.sin_sq_add_cos_sq phi
  constructor
  · rintro ⟨b, hb, h1, h2⟩
    simp only at h1 h2
    have : (x * Real.cos phi + y * Real.sin phi, y * Real.cos phi - x * Real.sin phi) = b := by
      ext
      · simp only; rw [h1, h2]; linear_combination b.1 * hs
      · simp only; rw [h1, h2]; linear_combination b.2 * hs
    rw [this]; exact hb
  · intro h
    refine ⟨_, h, ?_, ?_⟩
    · simp only; linear_combination -x * hs
    · simp only; linear_combination -y * hs

/-- The four triangles of a rectangle. -/
noncomputable def rectPiece (a b : ℝ) (j : ℕ) : Set (ℝ × ℝ) :=
  rotated (j * (Real.pi / 2)) (if j % 2 = 0 then triangle (a / 2, -(b / 2)) (a / 2, b / 2) else triangle (b / 2, -(a / 2)) (b / 2, a / 2))

theorem line_null (c : ℝ) : volume {q : ℝ × ℝ | q.2 = c * q.1} = 0 := by
  rw [Measure.volume_eq_prod, Measure.measure_prod_null (measurableSet_eq_fun (by fun_prop) (by fun_prop))]
  refine Filter.Eventually.of_forall fun x => ?_
  have : Prod.mk x ⁻¹' {q : ℝ × ℝ | q.2 = c * q.1} = {c * x} := by ext y; simp
  simp only [this]; simp

theorem pm_rect_pieces {a b : ℝ} (ha : 0 < a) (hb : 0 < b) (m k : ℕ) :
    pm (rectangle a b) m k = ∑ j ∈ range 4, pm (rectPiece a b j) m k := by
  have hc : ∀ j, IsCompact (rectPiece a b j) := by
    intro j; apply rotated_compact; split_ifs <;> exact triangle_compact _ _
  have hi : ∀ B : Set (ℝ × ℝ), IsCompact B → Integrable (B.indicator (pmf m k)) := fun B hB =>
    (integrable_indicator_iff hB.measurableSet).2 ((pmf_continuous m k).continuousOn.integrableOn_compact hB)
  have e : ∀ B : Set (ℝ × ℝ), IsCompact B → pm B m k = ∫ p, B.indicator (pmf m k) p := fun B hB => by
    rw [pm, integral_indicator hB.measurableSet]
  have e2 : ∑ j ∈ range 4, pm (rectPiece a b j) m k = ∑ j ∈ range 4, ∫ p, (rectPiece a b j).indicator (pmf m k) p :=
    sum_congr rfl fun j _ => e _ (hc j)
  rw [e _ (rectangle_compact a b), e2, ← integral_finsetSum _ fun j _ => hi _ (hc j)]
  apply integral_congr_ae
  have n1 := line_null (b / a)
  have n2 := line_null (-(b / a))
  have a1 : ∀ᵐ q : ℝ × ℝ, ¬ q.2 = b / a * q.1 := by rw [ae_iff]; simpa using n1
  have a2 : ∀ᵐ q : ℝ × ℝ, ¬ q.2 = -(b / a) * q.1 := by rw [ae_iff]; simpa using n2
  filter_upwards [a1, a2] with q h1 h2
  obtain ⟨x, y⟩ := q
  simp only at h1 h2
  have h1' : y * a ≠ b * x := fun h => h1 (by field_simp; linarith)
  have h2' : y * a ≠ -(b * x) := fun h => h2 (by field_simp; linarith)
  have q0 : (x, y) ∈ rectPiece a b 0 ↔ 0 ≤ x ∧ x ≤ a / 2 ∧ |y| * (a / 2) ≤ b / 2 * x := by
    rw [rectPiece, mem_rotated, if_pos (by norm_num), mem_tri_sym (by linarith) (by linarith)]; simp
  have q1 : (x, y) ∈ rectPiece a b 1 ↔ 0 ≤ y ∧ y ≤ b / 2 ∧ |x| * (b / 2) ≤ a / 2 * y := by
    rw [rectPiece, mem_rotated, if_neg (by norm_num), mem_tri_sym (by linarith) (by linarith)]; simp
  have c2 : Real.cos ((2 : ℕ) * (Real.pi / 2)) = -1 := by rw [← Real.cos_pi]; congr 1; push_cast; ring
  have s2 : Real.sin ((2 : ℕ) * (Real.pi / 2)) = 0 := by rw [← Real.sin_pi]; congr 1; push_cast; ring
  have c3 : Real.cos ((3 : ℕ) * (Real.pi / 2)) = 0 := by
    rw [show ((3 : ℕ) : ℝ) * (Real.pi / 2) = Real.pi / 2 + Real.pi by push_cast; ring, Real.cos_add_pi]; simp
  have s3 : Real.sin ((3 : ℕ) * (Real.pi / 2)) = -1 := by
    rw [show ((3 : ℕ) : ℝ) * (Real.pi / 2) = Real.pi / 2 + Real.pi by push_cast; ring, Real.sin_add_pi]; simp
  have q2 : (x, y) ∈ rectPiece a b 2 ↔ 0 ≤ -x ∧ -x ≤ a / 2 ∧ |y| * (a / 2) ≤ b / 2 * -x := by
    rw [rectPiece, mem_rotated, if_pos (by norm_num), mem_tri_sym (by linarith) (by linarith), c2, s2]; simp
  have q3 : (x, y) ∈ rectPiece a b 3 ↔ 0 ≤ -y ∧ -y ≤ b / 2 ∧ |x| * (b / 2) ≤ a / 2 * -y := by
    rw [rectPiece, mem_rotated, if_neg (by norm_num), mem_tri_sym (by linarith) (by linarith), c3, s3]; simp
  have qr : (x, y) ∈ rectangle a b ↔ |x| ≤ a / 2 ∧ |y| ≤ b / 2 := Iff.rfl
  have fin : ∀ j0 < 4, ((x, y) ∈ rectangle a b ↔ (x, y) ∈ rectPiece a b j0) → (∀ j < 4, j ≠ j0 → (x, y) ∉ rectPiece a b j) →
      (rectangle a b).indicator (pmf m k) (x, y) = ∑ j ∈ range 4, (rectPiece a b j).indicator (pmf m k) (x, y) := by
    intro j0 hj0 hr hn
    rw [sum_eq_single j0 (fun j hj hne => Set.indicator_of_notMem (hn j (mem_range.1 hj) hne) _)
      (fun h => absurd (mem_range.2 hj0) h)]
    by_cases h : (x, y) ∈ rectangle a b
    · rw [Set.indicator_of_mem h, Set.indicator_of_mem (hr.1 h)]
    · rw [Set.indicator_of_notMem h, Set.indicator_of_notMem fun h' => h (hr.2 h')]
  have hne : |y| * a ≠ b * |x| := by
    rcases abs_choice x with e | e <;> rcases abs_choice y with e' | e' <;> rw [e, e'] <;> intro h
    · exact h1' h
    · exact h2' (by linarith)
    · exact h2' (by linarith)
    · exact h1' (by linarith)
  have key : ∀ j0 < 4, (∀ j < 4, j ≠ j0 → (x, y) ∉ rectPiece a b j) → ((x, y) ∈ rectangle a b ↔ (x, y) ∈ rectPiece a b j0) →
      (rectangle a b).indicator (pmf m k) (x, y) = ∑ j ∈ range 4, (rectPiece a b j).indicator (pmf m k) (x, y) :=
    fun j0 h h' h'' => fin j0 h h'' h'
  have cases4 : ∀ j < 4, j = 0 ∨ j = 1 ∨ j = 2 ∨ j = 3 := by omega
  rcases lt_or_gt_of_ne hne with hlt | hlt
  · rcases le_total 0 x with hx | hx
    · rw [abs_of_nonneg hx] at hlt
      have hx0 : 0 < x := by
        have := abs_nonneg y
        by_contra h
        have : x = 0 := le_antisymm (not_lt.1 h) hx
        subst this
        nlinarith
      refine key 0 (by norm_num) ?_ ?_
      · intro j hj hj0
        rcases cases4 j hj with rfl | rfl | rfl | rfl
        · exact absurd rfl hj0
        · rw [q1]; rintro ⟨h3, h4, h5⟩
          rw [abs_of_nonneg hx] at h5; rw [abs_of_nonneg h3] at hlt; linarith
        · rw [q2]; rintro ⟨h3, -, -⟩; linarith
        · rw [q3]; rintro ⟨h3, h4, h5⟩
          rw [abs_of_nonneg hx] at h5; rw [abs_of_nonpos (by linarith)] at hlt; linarith
      · rw [qr, q0, abs_of_nonneg hx]
        constructor
        · rintro ⟨h3, h4⟩; exact ⟨hx, h3, by linarith⟩
        · rintro ⟨h3, h4, h5⟩; exact ⟨h4, by nlinarith⟩
    · rw [abs_of_nonpos hx] at hlt
      have hx0 : x < 0 := by
        have := abs_nonneg y
        by_contra h
        have : x = 0 := le_antisymm hx (not_lt.1 h)
        subst this
        nlinarith
      refine key 2 (by norm_num) ?_ ?_
      · intro j hj hj0
        rcases cases4 j hj with rfl | rfl | rfl | rfl
        · rw [q0]; rintro ⟨h3, -, -⟩; linarith
        · rw [q1]; rintro ⟨h3, h4, h5⟩
          rw [abs_of_nonpos hx] at h5; rw [abs_of_nonneg h3] at hlt; linarith
        · exact absurd rfl hj0
        · rw [q3]; rintro ⟨h3, h4, h5⟩
          rw [abs_of_nonpos hx] at h5; rw [abs_of_nonpos (by linarith)] at hlt; linarith
      · rw [qr, q2, abs_of_nonpos hx]
        constructor
        · rintro ⟨h3, h4⟩; exact ⟨by linarith, h3, by linarith⟩
        · rintro ⟨h3, h4, h5⟩; exact ⟨h4, by nlinarith⟩
  · rcases le_total 0 y with hy | hy
    · rw [abs_of_nonneg hy] at hlt
      have hy0 : 0 < y := by
        have := abs_nonneg x
        by_contra h
        have : y = 0 := le_antisymm (not_lt.1 h) hy
        subst this
        nlinarith
      refine key 1 (by norm_num) ?_ ?_
      · intro j hj hj0
        rcases cases4 j hj with rfl | rfl | rfl | rfl
        · rw [q0]; rintro ⟨h3, h4, h5⟩
          rw [abs_of_nonneg hy] at h5; rw [abs_of_nonneg h3] at hlt; linarith
        · exact absurd rfl hj0
        · rw [q2]; rintro ⟨h3, h4, h5⟩
          rw [abs_of_nonneg hy] at h5; rw [abs_of_nonpos (by linarith)] at hlt; linarith
        · rw [q3]; rintro ⟨h3, -, -⟩; linarith
      · rw [qr, q1, abs_of_nonneg hy]
        constructor
        · rintro ⟨h3, h4⟩; exact ⟨hy, h4, by linarith⟩
        · rintro ⟨h3, h4, h5⟩; exact ⟨by nlinarith, h4⟩
    · rw [abs_of_nonpos hy] at hlt
      have hy0 : y < 0 := by
        have := abs_nonneg x
        by_contra h
        have : y = 0 := le_antisymm hy (not_lt.1 h)
        subst this
        nlinarith
      refine key 3 (by norm_num) ?_ ?_
      · intro j hj hj0
        rcases cases4 j hj with rfl | rfl | rfl | rfl
        · rw [q0]; rintro ⟨h3, h4, h5⟩
          rw [abs_of_nonpos hy] at h5; rw [abs_of_nonneg h3] at hlt; linarith
        · rw [q1]; rintro ⟨h3, -, -⟩; linarith
        · rw [q2]; rintro ⟨h3, h4, h5⟩
          rw [abs_of_nonpos hy] at h5; rw [abs_of_nonpos (by linarith)] at hlt; linarith
        · exact absurd rfl hj0
      · rw [qr, q3, abs_of_nonpos hy]
        constructor
        · rintro ⟨h3, h4⟩; exact ⟨by linarith, h4, by linarith⟩
        · rintro ⟨h3, h4, h5⟩; exact ⟨by nlinarith, h4⟩

/-! ## Polygons -/

theorem pm_polygon_pieces {N : ℕ} (hN : 3 ≤ N) {a : ℝ} (ha : 0 < a) (phic : ℝ) (m k : ℕ) :
    pm (regularPolygon N a phic) m k = ∑ j ∈ range N,
      pm (rotated (phic + 2 * Real.pi * j / N) (triangle (apo N a, -(a / 2)) (apo N a, a / 2))) m k := by
  have hN0 : (N : ℂ) ≠ 0 := by exact_mod_cast (by omega : N ≠ 0)
  rw [polygon_rotated, pm_rotated, pm_polygon0 hN ha]
  have e : ∀ j ∈ range N, pm (rotated (phic + 2 * Real.pi * j / N) (triangle (apo N a, -(a / 2)) (apo N a, a / 2))) m k
      = Complex.exp (-Complex.I * m * phic) * pm (triangle (apo N a, -(a / 2)) (apo N a, a / 2)) m k
        * Complex.exp (-Complex.I * m * (2 * Real.pi / N)) ^ j := by
    intro j _
    rw [pm_rotated, ← Complex.exp_nat_mul, mul_right_comm (Complex.exp (-Complex.I * m * phic)), ← Complex.exp_add]
    congr 2
    push_cast; field_simp; ring
  rw [sum_congr rfl e, ← mul_sum]
  set w := Complex.exp (-Complex.I * m * (2 * Real.pi / N)) with hw
  have hwN : w ^ N = 1 := by
    rw [hw, ← Complex.exp_nat_mul, show (N : ℂ) * (-Complex.I * m * (2 * Real.pi / N)) = ((-(m : ℤ) : ℤ) : ℂ) * (2 * Real.pi * Complex.I) by
      push_cast; field_simp]
    exact Complex.exp_int_mul_two_pi_mul_I _
  have hsum : ∑ j ∈ range N, w ^ j = if m % N = 0 then (N : ℂ) else 0 := by
    split_ifs with h
    · have : w = 1 := by
        obtain ⟨q, hq⟩ := Nat.dvd_of_mod_eq_zero h
        rw [hw, hq, show -Complex.I * ((N * q : ℕ) : ℂ) * (2 * Real.pi / N) = ((-(q : ℤ) : ℤ) : ℂ) * (2 * Real.pi * Complex.I) by
          push_cast; field_simp]
        exact Complex.exp_int_mul_two_pi_mul_I _
      simp [this]
    · have hw1 : w ≠ 1 := by
        intro h1
        rw [hw, Complex.exp_eq_one_iff] at h1
        obtain ⟨n, hn⟩ := h1
        have hpi : (Real.pi : ℂ) ≠ 0 := by exact_mod_cast Real.pi_ne_zero
        have hI := Complex.I_ne_zero
        field_simp at hn
        have h2 : (-(m : ℤ) : ℤ) = N * n := by
          have : (-(m : ℂ)) = N * n := by linear_combination hn
          exact_mod_cast this
        exact h (Nat.mod_eq_zero_of_dvd (Int.natCast_dvd_natCast.1 ⟨-n, by linarith⟩))
      have := geom_sum_mul w N
      rw [hwN, sub_self] at this
      exact (mul_eq_zero.1 this).resolve_right (sub_ne_zero.2 hw1)
  rw [hsum]; ring

/-! ## Stacking -/

theorem prism_integral (H : ℝ) (hH : 0 < H) (B : Set (ℝ × ℝ)) (hB : IsCompact B) (f : V3 → ℂ) (hf : Continuous f) (c : ℝ) :
    ∫ v in prism H B, f (v + ![0, 0, c]) = ∫ z in (c - H / 2)..(c + H / 2), ∫ p in B, f ![p.1, p.2, z] := by
  have e : ∀ v : V3, f (v + ![0, 0, c]) = (fun p : ℝ × (ℝ × ℝ) => f ![p.2.1, p.2.2, p.1 + c]) (v 2, (v 0, v 1)) := by
    intro v
    congr 1
    funext i
    fin_cases i <;> simp
  simp_rw [e]
  rw [prism_eq, setIntegral_cyl (Set.Icc (-(H / 2)) (H / 2) ×ˢ B) (fun p : ℝ × (ℝ × ℝ) => f ![p.2.1, p.2.2, p.1 + c])]
  have hc : Continuous fun p : ℝ × (ℝ × ℝ) => f ![p.2.1, p.2.2, p.1 + c] := by
    refine hf.comp (continuous_pi fun i => ?_)
    fin_cases i <;> simp <;> fun_prop
  rw [Measure.volume_eq_prod, setIntegral_prod _ (by
    rw [← Measure.volume_eq_prod]; exact hc.continuousOn.integrableOn_compact (isCompact_Icc.prod hB))]
  rw [integral_Icc_eq_integral_Ioc, ← intervalIntegral.integral_of_le (by linarith)]
  have := intervalIntegral.integral_comp_add_right (a := -(H / 2)) (b := H / 2) (fun z : ℝ => ∫ p in B, f ![p.1, p.2, z]) c
  rw [show c - H / 2 = -(H / 2) + c by ring, show c + H / 2 = H / 2 + c by ring, ← this]

theorem uniform_translate (L : ℕ) (mass : ℝ) (S : Set V3) (hS : IsCompact S) (d : V3) :
    translate_qlm (Mom.ofFn L (uniformMoment mass S)) d =
      Mom.ofFn L fun l m => ((mass / (volume S).toReal : ℝ) : ℂ) * ∫ v in S, solidS l m (v + d) := by
  have e : Mom.ofFn L (uniformMoment mass S) = Mom.ofFn L (Body.solid mass _ hS).inner := by
    apply Mom.ext_get
    intro l m hl hm
    rw [Mom.get_ofFn _ hl hm, Mom.get_ofFn _ hl hm, Body.inner_solid]
  rw [e, C56_translate]
  apply Mom.ext_get
  intro l m hl hm
  rw [Mom.get_ofFn _ hl hm, Mom.get_ofFn _ hl hm]
  simp only [Body.inner, Body.solid, Body.translate, List.map_cons, List.map_nil, List.sum_cons, List.sum_nil, add_zero]
  rw [Piece.integral_move _ _ _ _ (continuous_solidS l m)]
  rfl

theorem slice_continuous (B : Set (ℝ × ℝ)) (hB : IsCompact B) (f : V3 → ℂ) (hf : Continuous f) :
    Continuous fun z : ℝ => ∫ p in B, f ![p.1, p.2, z] := by
  have hc : Continuous fun q : ℝ × (ℝ × ℝ) => f ![q.2.1, q.2.2, q.1] := by
    refine hf.comp (continuous_pi fun i => ?_)
    fin_cases i <;> simp <;> fun_prop
  exact continuous_parametric_integral_of_continuous (f := fun (z : ℝ) (p : ℝ × ℝ) => f ![p.1, p.2, z]) hc hB

theorem stack_aux (m1 m2 h1 h2 : ℝ) (hh1 : 0 < h1) (hh2 : 0 < h2) (hm : m1 * h2 = m2 * h1) (V : ℝ) (g : ℝ → ℂ) (hgc : Continuous g) :
    (((m1 + m2) / ((h1 + h2) * V) : ℝ) : ℂ) * ∫ z in (0 - (h1 + h2) / 2)..(0 + (h1 + h2) / 2), g z =
      ((m1 / (h1 * V) : ℝ) : ℂ) * (∫ z in (-(h2 / 2) - h1 / 2)..(-(h2 / 2) + h1 / 2), g z) +
        ((m2 / (h2 * V) : ℝ) : ℂ) * ∫ z in (h1 / 2 - h2 / 2)..(h1 / 2 + h2 / 2), g z := by
  rw [show (0 : ℝ) - (h1 + h2) / 2 = -(h2 / 2) - h1 / 2 by ring, show (0 : ℝ) + (h1 + h2) / 2 = h1 / 2 + h2 / 2 by ring,
    show h1 / 2 - h2 / 2 = -(h2 / 2) + h1 / 2 by ring,
    ← intervalIntegral.integral_add_adjacent_intervals (hgc.intervalIntegrable _ (-(h2 / 2) + h1 / 2)) (hgc.intervalIntegrable _ _), mul_add]
  have r1 : (m1 + m2) / ((h1 + h2) * V) = m1 / (h1 * V) := by
    have h12 : h1 + h2 ≠ 0 := by linarith
    rw [← div_div, ← div_div]
    congr 1
    rw [div_eq_div_iff h12 hh1.ne']
    linarith
  have r2 : m1 / (h1 * V) = m2 / (h2 * V) := by
    rw [← div_div, ← div_div]
    congr 1
    rw [div_eq_div_iff hh1.ne' hh2.ne']
    linarith
  rw [r1, ← r2]

theorem prism_stack (L : ℕ) (m1 m2 h1 h2 : ℝ) (hh1 : 0 < h1) (hh2 : 0 < h2) (hm : m1 * h2 = m2 * h1) (B : Set (ℝ × ℝ)) (hB : IsCompact B)
    (l : ℕ) (m : ℤ) :
    (Mom.ofFn L (uniformMoment (m1 + m2) (prism (h1 + h2) B))).get l m =
      (translate_qlm (Mom.ofFn L (uniformMoment m1 (prism h1 B))) ![0, 0, -(h2 / 2)]).get l m +
        (translate_qlm (Mom.ofFn L (uniformMoment m2 (prism h2 B))) ![0, 0, h1 / 2]).get l m := by
  rw [uniform_translate L _ _ (prism_compact _ _ hB), uniform_translate L _ _ (prism_compact _ _ hB)]
  by_cases h : l ≤ L ∧ m.natAbs ≤ L
  swap
  · rw [Mom.get_out _ h, Mom.get_out _ h, Mom.get_out _ h, add_zero]
  rw [Mom.get_ofFn _ h.1 h.2, Mom.get_ofFn _ h.1 h.2, Mom.get_ofFn _ h.1 h.2, uniformMoment]
  have e0 : ∫ v in prism (h1 + h2) B, solidS l m v = ∫ v in prism (h1 + h2) B, solidS l m (v + ![0, 0, 0]) := by
    have : (![0, 0, 0] : V3) = 0 := by funext i; fin_cases i <;> rfl
    rw [this]; simp
  rw [e0, prism_integral _ (by linarith) B hB _ (continuous_solidS l m), prism_integral _ hh1 B hB _ (continuous_solidS l m),
    prism_integral _ hh2 B hB _ (continuous_solidS l m), prism_vol _ (by linarith), prism_vol _ hh1, prism_vol _ hh2]
  exact stack_aux m1 m2 h1 h2 hh1 hh2 hm _ _ (slice_continuous B hB _ (continuous_solidS l m))

end Newt
