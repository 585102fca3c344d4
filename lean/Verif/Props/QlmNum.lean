import Verif.Proofs.QlmNumBodies
import Verif.Proofs.MpcShapes
import Verif.Props.Qlm

/-!
# C63, C64: the integrating constructors of `newt/qlmNum.py` and `newt/bigQlmNum.py`

`densityInner dens S` / `densityOuter dens S` (Spec/SolidsNum.lean) are `dens` times the Lebesgue
integral over the set `S` of `r^l conj(Y_lm)` / `Y_lm / r^(l+1)`.
-/

namespace Newt

open MeasureTheory Spec

/-! ## C63: inner moments -/

/-- The annular section between the heights `h1` and `h2`. -/
theorem C63_cyl_mom (L : ℕ) (dens phih IR OR h1 h2 : ℝ) (h0 : 0 < phih) (hpi : phih ≤ Real.pi) (hI : 0 ≤ IR)
    (hO : IR ≤ OR) (hO0 : 0 < OR) (hh : h1 ≤ h2) :
    QlmNum.cylMom L dens phih IR OR h1 h2
      = .ok (Mom.ofFn L (densityInner dens (slab h1 h2 (sector IR OR 0 phih)))) := by
  rw [QlmNum.cylMom, if_neg (by push Not; exact ⟨hh, hO, h0.ne', hO0⟩),
    (slab_sector_body phih IR OR h1 h2 h0 hpi hI hO hh).inner_finish L dens]

/-- Finding: a negative half-angle is not refused; the result is that of matter of negative density. -/
theorem C63_cyl_mom_negative_angle (L : ℕ) (dens phih IR OR h1 h2 : ℝ) (h0 : 0 < phih) (hpi : phih ≤ Real.pi) (hI : 0 ≤ IR)
    (hO : IR ≤ OR) (hO0 : 0 < OR) (hh : h1 ≤ h2) :
    QlmNum.cylMom L dens (-phih) IR OR h1 h2
      = .ok (Mom.ofFn L (densityInner (-dens) (slab h1 h2 (sector IR OR 0 phih)))) := by
  rw [QlmNum.cylMom, if_neg (by push Not; exact ⟨hh, hO, by linarith, hO0⟩),
    ← (slab_sector_body phih IR OR h1 h2 h0 hpi hI hO hh).inner_finish L (-dens)]
  congr 1
  unfold QlmNum.finish
  congr 1
  funext l m
  simp only [tplquad, neg_neg]
  rw [intervalIntegral.integral_symm]
  push_cast; ring

/-- The section of the cone standing on the annulus `IR <= r <= OR`. -/
theorem C63_cone_mom (L : ℕ) (dens phih IR OR H : ℝ) (h0 : 0 < phih) (hpi : phih ≤ Real.pi) (hI : 0 ≤ IR)
    (hO : IR < OR) (hH : 0 < H) :
    QlmNum.coneMom L dens phih IR OR H = .ok (Mom.ofFn L (densityInner dens (coneSection phih IR OR H))) := by
  rw [QlmNum.coneMom, if_neg (by push Not; exact ⟨hH, hO.le, h0.ne', by linarith⟩),
    (coneSection_body phih IR OR H h0 hpi hI hO hH).inner_finish L dens]

/-- The trapezoidal prism between the heights `h1` and `h2`. -/
theorem C63_trap_mom (L : ℕ) (dens phih IR OR h1 h2 : ℝ) (h0 : 0 < phih) (hp2 : phih < Real.pi / 2) (hI : 0 ≤ IR)
    (hO : IR ≤ OR) (hO0 : 0 < OR) (hh : h1 ≤ h2) :
    QlmNum.trapMom L dens phih IR OR h1 h2
      = .ok (Mom.ofFn L (densityInner dens (slab h1 h2 (radialTrapezoid phih IR OR)))) := by
  rw [QlmNum.trapMom, if_neg (by push Not; exact ⟨hh, hO, h0, hO0⟩), if_neg (by push Not; exact hp2),
    (slab_trapezoid_body phih IR OR h1 h2 h0 hp2 hI hO hh).inner_finish L dens]

theorem sq_le_iff_sqrt (a y : ℝ) (ha : 0 ≤ a) : y ^ 2 ≤ a ↔ -Real.sqrt a ≤ y ∧ y ≤ Real.sqrt a := by
  rw [← abs_le, Real.le_sqrt (abs_nonneg y), sq_abs] <;> assumption

theorem disc_iff (r x y : ℝ) (hr : 0 < r) : x ^ 2 + y ^ 2 ≤ r ^ 2 ↔
    (-r ≤ x ∧ x ≤ r) ∧ (-Real.sqrt (r ^ 2 - x ^ 2) ≤ y ∧ y ≤ Real.sqrt (r ^ 2 - x ^ 2)) := by
  constructor
  · intro h
    have hx := abs_le_of_sq_le_sq' (a := x) (b := r) (by nlinarith [sq_nonneg y]) hr.le
    refine ⟨hx, (sq_le_iff_sqrt _ y ?_).1 (by linarith)⟩
    nlinarith [sq_nonneg y]
  · rintro ⟨hx, hy⟩
    have := (sq_le_iff_sqrt (r ^ 2 - x ^ 2) y (by nlinarith)).2 hy
    linarith

/-- What a drill of radius `r` along `z` removes from a cylinder of radius `R` along `x`. -/
theorem C63_steinmetz (L : ℕ) (dens r R : ℝ) (hr : 0 < r) (hR : r ≤ R) :
    QlmNum.steinmetz L dens r R = .ok (Mom.ofFn L (densityInner dens (steinmetz r R))) := by
  rw [QlmNum.steinmetz, if_neg (by push Not; exact ⟨hr, hR⟩)]
  congr 1
  have hm0 : Measurable fun v : V3 => v 0 := measurable_pi_apply 0
  have hm1 : Measurable fun v : V3 => v 1 := measurable_pi_apply 1
  have hm2 : Measurable fun v : V3 => v 2 := measurable_pi_apply 2
  refine cart_finish (steinmetz r R) ?_ ?_ r R hr.le (by linarith) ?_ (-r) r (by linarith) _ _ _ _ ?_ ?_ ?_ L dens
  · exact (measurableSet_le ((hm0.pow_const 2).add (hm1.pow_const 2)) measurable_const).inter
      (measurableSet_le ((hm1.pow_const 2).add (hm2.pow_const 2)) measurable_const)
  · intro x y z
    simp [steinmetz]
  · rintro v ⟨h1, h2⟩
    exact ⟨h1, abs_le_of_sq_le_sq (by nlinarith [sq_nonneg (v 1)]) (by linarith)⟩
  · intro x _ _
    linarith [Real.sqrt_nonneg (r ^ 2 - x ^ 2)]
  · intro x y _ _ _ _
    linarith [Real.sqrt_nonneg (R ^ 2 - y ^ 2)]
  · intro x y z
    show x ^ 2 + y ^ 2 ≤ r ^ 2 ∧ y ^ 2 + z ^ 2 ≤ R ^ 2 ↔ _
    rw [disc_iff r x y hr, and_assoc]
    refine and_congr_right fun hx => and_congr_right fun hy => ?_
    have h1 := (disc_iff r x y hr).2 ⟨hx, hy⟩
    rw [← sq_le_iff_sqrt (R ^ 2 - y ^ 2) z (by nlinarith [sq_nonneg x])]
    constructor <;> intro h <;> linarith

theorem plate_iff (t theta x z : ℝ) (hc : 0 < Real.cos theta) :
    |z * Real.cos theta - x * Real.sin theta| ≤ t / 2 ↔
      x * Real.tan theta - t / Real.cos theta / 2 ≤ z ∧ z ≤ x * Real.tan theta + t / Real.cos theta / 2 := by
  rw [abs_le, Real.tan_eq_sin_div_cos,
    show x * (Real.sin theta / Real.cos theta) - t / Real.cos theta / 2
      = (x * Real.sin theta - t / 2) / Real.cos theta by ring,
    show x * (Real.sin theta / Real.cos theta) + t / Real.cos theta / 2
      = (x * Real.sin theta + t / 2) / Real.cos theta by ring, div_le_iff₀ hc, le_div_iff₀ hc]
  constructor <;> rintro ⟨h1, h2⟩ <;> constructor <;> linarith

theorem plate_core (L : ℕ) (dens t r theta c tn h : ℝ) (hr : 0 < r) (hh : 0 ≤ h)
    (hiff : ∀ x z : ℝ, |z * Real.cos theta - x * Real.sin theta| ≤ t / 2 ↔ x * tn - h / 2 ≤ z ∧ z ≤ x * tn + h / 2) :
    QlmNum.finish L dens (fun l m => tplquad (QlmNum.cartIntegrand l m) (-r) r
        (fun x => -Real.sqrt (r ^ 2 - x ^ 2)) (fun x => Real.sqrt (r ^ 2 - x ^ 2))
        (fun x _ => x * tn - h / 2) (fun x _ => x * tn + h / 2))
      = Mom.ofFn L (densityInner dens (platehole t r theta)) := by
  have hm0 : Measurable fun v : V3 => v 0 := measurable_pi_apply 0
  have hm1 : Measurable fun v : V3 => v 1 := measurable_pi_apply 1
  have hm2 : Measurable fun v : V3 => v 2 := measurable_pi_apply 2
  refine cart_finish (platehole t r theta) ?_ ?_ r (r * |tn| + h) hr.le (by positivity) ?_ (-r) r (by linarith)
    _ _ _ _ ?_ ?_ ?_ L dens
  · refine (measurableSet_le ((hm0.pow_const 2).add (hm1.pow_const 2)) measurable_const).inter
      (measurableSet_le (((hm2.mul_const _).sub (hm0.mul_const _))).norm measurable_const)
  · intro x y z
    simp [platehole]
  · rintro v ⟨h1, h2⟩
    refine ⟨h1, ?_⟩
    have h3 := (hiff (v 0) (v 2)).1 h2
    have hx := abs_le_of_sq_le_sq (a := v 0) (b := r) (by nlinarith [sq_nonneg (v 1)]) hr.le
    have hxt : |v 0 * tn| ≤ r * |tn| := by
      rw [abs_mul]; exact mul_le_mul_of_nonneg_right hx (abs_nonneg _)
    have h4 := abs_le.1 hxt
    rw [abs_le]
    constructor <;> linarith [h4.1, h4.2, h3.1, h3.2]
  · intro x _ _
    linarith [Real.sqrt_nonneg (r ^ 2 - x ^ 2)]
  · intro x y _ _ _ _
    linarith
  · intro x y z
    show x ^ 2 + y ^ 2 ≤ r ^ 2 ∧ |z * Real.cos theta - x * Real.sin theta| ≤ t / 2 ↔ _
    rw [disc_iff r x y hr, hiff x z, and_assoc]

/-- What a drill of radius `r` along `z` removes from a tilted plate. -/
theorem C63_platehole (L : ℕ) (dens t r theta : ℝ) (hr : 0 < r) (ht : 0 < t) (h1 : -(Real.pi / 2) < theta)
    (h2 : theta < Real.pi / 2) :
    QlmNum.platehole L dens t r theta = .ok (Mom.ofFn L (densityInner dens (platehole t r theta))) := by
  have hc : 0 < Real.cos theta := Real.cos_pos_of_mem_Ioo ⟨h1, h2⟩
  rw [QlmNum.platehole, if_neg (by push Not; exact ⟨hr, h2, ht⟩)]
  simp only
  congr 1
  exact plate_core L dens t r theta 0 _ _ hr (by positivity) fun x z => plate_iff t theta x z hc

/-- Finding: tilts below `-pi/2` are not refused; when `cos(theta) < 0` the result is that of a hole of
negative density. -/
theorem C63_platehole_negative (L : ℕ) (dens t r theta : ℝ) (hr : 0 < r) (ht : 0 < t) (h2 : theta < Real.pi / 2)
    (hc : Real.cos theta < 0) :
    QlmNum.platehole L dens t r theta = .ok (Mom.ofFn L (densityInner (-dens) (platehole t r theta))) := by
  rw [QlmNum.platehole, if_neg (by push Not; exact ⟨hr, h2, ht⟩)]
  simp only
  congr 1
  have hh : 0 ≤ -(t / Real.cos theta) := by
    rw [← div_neg]; exact div_nonneg ht.le (by linarith)
  rw [← plate_core L (-dens) t r theta 0 (Real.tan theta) (-(t / Real.cos theta)) hr hh]
  · unfold QlmNum.finish
    congr 1
    funext l m
    have : ∀ (f : ℝ → ℝ → ℝ → ℝ) (a b : ℝ) (c d : ℝ → ℝ) (q s : ℝ → ℝ → ℝ),
        tplquad f a b c d q s = -tplquad f a b c d s q := by
      intro f a b c d q s
      simp only [tplquad]
      rw [← intervalIntegral.integral_neg]
      congr 1; funext x
      rw [← intervalIntegral.integral_neg]
      congr 1; funext y
      rw [intervalIntegral.integral_symm]
    beta_reduce
    rw [this]
    push_cast
    have e1 : ∀ x : ℝ, x * Real.tan theta - -(t / Real.cos theta) / 2 = x * Real.tan theta + t / Real.cos theta / 2 :=
      fun x => by ring
    have e2 : ∀ x : ℝ, x * Real.tan theta + -(t / Real.cos theta) / 2 = x * Real.tan theta - t / Real.cos theta / 2 :=
      fun x => by ring
    simp only [e1, e2]
    ring
  · intro x z
    have h := plate_iff t (theta + Real.pi) x z (by rw [Real.cos_add_pi]; linarith)
    rw [Real.cos_add_pi, Real.sin_add_pi, Real.tan_add_pi,
      show z * -Real.cos theta - x * -Real.sin theta = -(z * Real.cos theta - x * Real.sin theta) by ring, abs_neg,
      div_neg] at h
    exact h

/-- The integrating and the closed-form annulus agree: `qlmNum.cyl_mom` with density `dens` and
`qlm.annulus` with the mass `dens * volume` return the same array. -/
theorem C63_agrees_with_annulus (L : ℕ) (dens phih IR OR H : ℝ) (h0 : 0 < phih) (hpi : phih ≤ Real.pi) (hI : 0 ≤ IR)
    (hO : IR < OR) (hH : 0 < H) :
    QlmNum.cylMom L dens phih IR OR (-(H / 2)) (H / 2)
      = Qlm.annulus L (dens * (phih * (OR ^ 2 - IR ^ 2) * H)) H IR OR 0 phih := by
  rw [C63_cyl_mom L dens phih IR OR _ _ h0 hpi hI hO.le (by linarith) (by linarith),
    C36_annulus L _ H IR OR 0 phih hH hI hO h0 hpi]
  have hv : (volume (prism H (sector IR OR 0 phih))).toReal = phih * (OR ^ 2 - IR ^ 2) * H := by
    rw [prism_vol H hH, area_sector IR OR 0 phih hI hO.le h0.le hpi]; ring
  have hpos : 0 < phih * (OR ^ 2 - IR ^ 2) * H := by
    have : 0 < OR ^ 2 - IR ^ 2 := by nlinarith
    positivity
  congr 2
  funext l m
  rw [densityInner, uniformMoment, hv, mul_div_cancel_right₀ _ hpos.ne']
  rfl

/-! ## C64: outer moments -/

/-- The annular section, off the origin. -/
theorem C64_annulus (L : ℕ) (dens h1 h2 IR OR phih : ℝ) (h0 : 0 < phih) (hpi : phih ≤ Real.pi) (hI : 0 ≤ IR)
    (hO : IR ≤ OR) (hO0 : 0 < OR) (hh : h1 ≤ h2) (hoff : 0 < IR ∨ 0 < h1 ∨ h2 < 0) :
    BigQlmNum.annulus L dens h1 h2 IR OR phih
      = .ok (Mom.ofFn L (densityOuter dens (slab h1 h2 (sector IR OR 0 phih)))) := by
  rw [BigQlmNum.annulus, if_neg (by push Not; exact ⟨hh, hO, h0, hO0, hpi⟩), if_neg ?_]
  · congr 1
    by_cases hI0 : 0 < IR
    · exact (slab_sector_body phih IR OR h1 h2 h0 hpi hI hO hh).outer_finish IR hI0
        (sector_le_modulus IR OR phih h1 h2 hI) L dens
    · have hz : ¬ (h1 ≤ 0 ∧ 0 ≤ h2) := by
        rintro ⟨a, b⟩
        rcases hoff with h | h | h <;> linarith
      have hpos : 0 < min |h1| |h2| := by
        by_cases h : h1 ≤ 0
        · have h2n : h2 < 0 := by
            by_contra hc; exact hz ⟨h, by linarith⟩
          exact lt_min (abs_pos.2 (by linarith)) (abs_pos.2 h2n.ne)
        · push Not at h
          exact lt_min (abs_pos.2 h.ne') (abs_pos.2 (by linarith))
      exact (slab_sector_body phih IR OR h1 h2 h0 hpi hI hO hh).outer_finish _ hpos
        (fun v hv => (slab_off h1 h2 _ hz v hh hv).1) L dens
  · rintro ⟨⟨a, b⟩, c⟩
    rcases hoff with h | h | h <;> linarith

/-- The annulus that reaches the origin is refused. -/
theorem C64_annulus_refuses (L : ℕ) (dens h1 h2 IR OR phih : ℝ) (hI : IR ≤ 0) (h1' : h1 ≤ 0) (h2' : 0 ≤ h2) :
    BigQlmNum.annulus L dens h1 h2 IR OR phih = .valueError := by
  rw [BigQlmNum.annulus]
  split_ifs with a b
  · rfl
  · rfl
  · exact absurd ⟨⟨h1', h2'⟩, hI⟩ b

/-- The cone section, off the origin. -/
theorem C64_outer_cone (L : ℕ) (dens H IR OR phih : ℝ) (h0 : 0 < phih) (hpi : phih ≤ Real.pi) (hI : 0 < IR)
    (hO : IR < OR) (hH : 0 < H) :
    BigQlmNum.outerCone L dens H IR OR phih = .ok (Mom.ofFn L (densityOuter dens (coneSection phih IR OR H))) := by
  rw [BigQlmNum.outerCone, if_neg (by push Not; exact ⟨hH, hO.le, h0, by linarith, hpi⟩)]
  congr 1
  exact (coneSection_body phih IR OR H h0 hpi hI.le hO hH).outer_finish IR hI
    (coneSection_le_modulus phih IR OR H hI.le) L dens

/-- The trapezoidal prism, off the origin. -/
theorem C64_trapezoid (L : ℕ) (dens h1 h2 IR OR phih : ℝ) (h0 : 0 < phih) (hp2 : phih < Real.pi / 2) (hI : 0 ≤ IR)
    (hO : IR ≤ OR) (hO0 : 0 < OR) (hh : h1 ≤ h2) (hoff : 0 < IR ∨ 0 < h1 ∨ h2 < 0) :
    BigQlmNum.trapezoid L dens h1 h2 IR OR phih
      = .ok (Mom.ofFn L (densityOuter dens (slab h1 h2 (radialTrapezoid phih IR OR)))) := by
  have hc : 0 < Real.cos phih := Real.cos_pos_of_mem_Ioo ⟨by linarith, hp2⟩
  rw [BigQlmNum.trapezoid, if_neg (by push Not; exact ⟨hh, hO, h0, hO0⟩), if_neg ?_]
  · congr 1
    by_cases hI0 : 0 < IR
    · exact (slab_trapezoid_body phih IR OR h1 h2 h0 hp2 hI hO hh).outer_finish (IR * Real.cos phih)
        (mul_pos hI0 hc) (trapezoid_le_modulus phih IR OR h1 h2 hI hc.le) L dens
    · have hz : ¬ (h1 ≤ 0 ∧ 0 ≤ h2) := by
        rintro ⟨a, b⟩
        rcases hoff with h | h | h <;> linarith
      have hpos : 0 < min |h1| |h2| := by
        by_cases h : h1 ≤ 0
        · have h2n : h2 < 0 := by
            by_contra hc; exact hz ⟨h, by linarith⟩
          exact lt_min (abs_pos.2 (by linarith)) (abs_pos.2 h2n.ne)
        · push Not at h
          exact lt_min (abs_pos.2 h.ne') (abs_pos.2 (by linarith))
      exact (slab_trapezoid_body phih IR OR h1 h2 h0 hp2 hI hO hh).outer_finish _ hpos
        (fun v hv => (slab_off h1 h2 _ hz v hh hv).1) L dens
  · rintro (⟨⟨a, b⟩, c⟩ | c)
    · rcases hoff with h | h | h <;> linarith
    · linarith

/-- The trapezoid that reaches the origin is refused. -/
theorem C64_trapezoid_refuses (L : ℕ) (dens h1 h2 IR OR phih : ℝ) (hI : IR ≤ 0) (h1' : h1 ≤ 0) (h2' : 0 ≤ h2) :
    BigQlmNum.trapezoid L dens h1 h2 IR OR phih = .valueError := by
  rw [BigQlmNum.trapezoid]
  split_ifs with a b
  · rfl
  · rfl
  · exact absurd (Or.inl ⟨⟨h1', h2'⟩, hI⟩) b

/-- Finding: the cone that reaches the origin is not refused. -/
theorem C64_outer_cone_accepts_origin (L : ℕ) (dens H OR phih : ℝ) (h0 : 0 < phih) (hpi : phih ≤ Real.pi) (hO : 0 < OR)
    (hH : 0 < H) :
    (0 : V3) ∈ coneSection phih 0 OR H ∧ BigQlmNum.outerCone L dens H 0 OR phih ≠ .valueError := by
  constructor
  · refine ⟨0, 0, le_rfl, hO.le, by linarith, h0.le, by simp, by simp, le_rfl, ?_⟩
    simp; positivity
  · rw [BigQlmNum.outerCone, if_neg (by push Not; exact ⟨hH, hO.le, h0, hO, hpi⟩)]
    exact fun h => by cases h

/-! ## Non-vacuity -/

/-- A half annulus satisfies the hypotheses of `C63_cyl_mom`, `C63_cone_mom`, `C64_annulus` and
`C64_outer_cone`; its mass is not zero. -/
example : (0 : ℝ) < 1 ∧ (1 : ℝ) ≤ Real.pi ∧ (0 : ℝ) < 1 / 2 ∧
    (volume (prism 2 (sector (1 / 2) 1 0 1))).toReal = 3 / 2 := by
  have := Real.pi_gt_three
  refine ⟨by norm_num, by linarith, by norm_num, ?_⟩
  rw [prism_vol 2 (by norm_num), area_sector (1 / 2) 1 0 1 (by norm_num) (by norm_num) (by norm_num) (by linarith)]
  norm_num

/-- A tilt with a negative cosine below `-pi/2`. -/
example : -Real.pi < Real.pi / 2 ∧ Real.cos (-Real.pi) < 0 := by
  have := Real.pi_pos
  exact ⟨by linarith, by rw [Real.cos_neg, Real.cos_pi]; norm_num⟩

/-- `q00` of `cyl_mom` is the mass over `sqrt(4 pi)`: a non-trivial instance. -/
example : QlmNum.cylMom 0 2 1 (1 / 2) 1 (-(2 / 2)) (2 / 2)
    = Qlm.annulus 0 3 2 (1 / 2) 1 0 1 := by
  have := Real.pi_gt_three
  rw [C63_agrees_with_annulus 0 2 1 (1 / 2) 1 2 (by norm_num) (by linarith) (by norm_num) (by norm_num) (by norm_num)]
  norm_num

end Newt
