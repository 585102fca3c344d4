import Verif.Props.QlmACH
import Verif.Props.QlmNum
import Verif.Props.Shapes
import Verif.Props.GlibConverge
import Verif.Proofs.Dissect

/-!
# C119: the closed forms, the recursions and the integrating constructors agree

What `newt/tests/qlm_Test.py` checks for one choice of dimensions, for all of them.
-/

namespace Newt

open MeasureTheory Spec

/-- Rotating the array of moments of a filled region by Euler angles gives the array of the rotated region. -/
theorem density_rotate (L : ℕ) (dens alpha beta gamma : ℝ) (S T : Set V3) (hS : IsCompact S)
    (h : euler alpha beta gamma '' S = T) :
    rotate_qlm (Mom.ofFn L (densityInner dens S)) alpha beta gamma = some (Mom.ofFn L (densityInner dens T)) := by
  have hT : IsCompact T := by rw [← h]; exact hS.image (continuous_euler _ _ _)
  have e : ∀ (A : Set V3) (hA : IsCompact A), densityInner dens A = (Body.filled dens A hA).inner := by
    intro A hA; funext l m; rw [inner_filled, densityInner]
  rw [e S hS, e T hT, C56_rotate, Option.some.injEq]
  congr 1
  funext l m
  refine inner_move dens S T hS hT _ _ (((rzE gamma).trans (ryE beta)).trans (rzE alpha)) (fun v => ?_) ?_ h l m
  · rw [euler, turnZ_eq, turnZ_eq, turnY_eq]; rfl
  · exact (rz_mp alpha).comp ((ry_mp beta).comp (rz_mp gamma))

theorem euler_turnY (t : ℝ) : euler 0 t 0 = turnY t := by
  funext v i; fin_cases i <;> simp [euler, turnZ, turnY]

theorem euler_turnZ (t : ℝ) : euler t 0 0 = turnZ t := by
  funext v i; fin_cases i <;> simp [euler, turnZ, turnY]

theorem turnY_back (t : ℝ) (v : V3) : turnY t (turnY (-t) v) = v := by
  have h := Real.cos_sq_add_sin_sq t
  funext i
  fin_cases i <;> simp [turnY]
  · linear_combination v 0 * h
  · linear_combination v 2 * h

theorem turn_platehole (t r theta : ℝ) : turnY theta '' platehole t r theta = drilledSlab t r theta := by
  have h := Real.cos_sq_add_sin_sq theta
  ext v
  constructor
  · rintro ⟨w, ⟨h1, h2⟩, rfl⟩
    rw [abs_le] at h2
    simp only [drilledSlab, turnY, Set.mem_setOf_eq, Matrix.cons_val]
    refine ⟨h2.1, h2.2, ?_⟩
    have e : (w 0 * Real.cos theta + w 2 * Real.sin theta) * Real.cos theta -
        (w 2 * Real.cos theta - w 0 * Real.sin theta) * Real.sin theta = w 0 := by linear_combination w 0 * h
    rw [e]; exact h1
  · rintro ⟨h1, h2, h3⟩
    refine ⟨turnY (-theta) v, ⟨?_, ?_⟩, turnY_back _ _⟩
    · simp only [turnY, Real.cos_neg, Real.sin_neg, Matrix.cons_val]
      have e : v 0 * Real.cos theta + v 2 * -Real.sin theta = v 0 * Real.cos theta - v 2 * Real.sin theta := by ring
      rw [e]; exact h3
    · simp only [turnY, Real.cos_neg, Real.sin_neg, Matrix.cons_val]
      have e : (v 2 * Real.cos theta - v 0 * -Real.sin theta) * Real.cos theta -
          (v 0 * Real.cos theta + v 2 * -Real.sin theta) * Real.sin theta = v 2 := by linear_combination v 2 * h
      rw [e, abs_le]; exact ⟨h1, h2⟩

theorem ofFn_low {L : ℕ} (hL : L ≤ 5) (f : ℕ → ℤ → ℂ) : (Mom.ofFn L fun l m => if l ≤ 5 then f l m else 0) = Mom.ofFn L f := by
  apply Mom.ext_get
  intro l m hl hm
  rw [Mom.get_ofFn _ hl hm, Mom.get_ofFn _ hl hm, if_pos (by omega)]

/-- C119: the numerical plate hole, turned by `theta` about y, is the closed form (up to degree 5, where the latter is known). -/
theorem C119_platehole (L : ℕ) (hL : L ≤ 5) (rho t r theta : ℝ) (ht : 0 < t) (hr : 0 < r) (hth : |theta| < Real.pi / 2) :
    ∃ q q', QlmNum.platehole L rho t r theta = .ok q ∧ rotate_qlm q 0 theta 0 = some q' ∧
      QlmACH.platehole L rho t r theta = .ok q' := by
  obtain ⟨h1, h2⟩ := abs_lt.1 hth
  refine ⟨_, _, C63_platehole L rho t r theta hr ht h1 h2, density_rotate L rho 0 theta 0 _ (drilledSlab t r theta) ?_ ?_, ?_⟩
  · have e : turnY (-theta) '' drilledSlab t r theta = platehole t r theta := by
      rw [← turn_platehole, ← Set.image_comp]
      conv_rhs => rw [← Set.image_id (platehole t r theta)]
      refine Set.image_congr fun v _ => ?_
      have := turnY_back (-theta) v
      rwa [neg_neg] at this
    rw [← e]
    exact (slab_compact t r theta ht.le hr.le (Real.cos_pos_of_mem_Ioo ⟨h1, h2⟩)).image (continuous_turnY _)
  · rw [euler_turnY, turn_platehole]
  · rw [C68_platehole L rho t r theta ht hr hth, ofFn_low hL]

/-- C119: the numerical hole drilled in a cylinder, turned by a right angle about z, is the closed form with elliptic integrals. -/
theorem C119_cylhole (L : ℕ) (hL : L ≤ 5) (rho r R : ℝ) (hr : 0 < r) (hR : r ≤ R) :
    ∃ q q', QlmNum.steinmetz L rho r R = .ok q ∧ rotate_qlm q (Real.pi / 2) 0 0 = some q' ∧
      QlmACH.cylhole2 L rho r R = .ok q' := by
  refine ⟨_, _, C63_steinmetz L rho r R hr hR, density_rotate L rho (Real.pi / 2) 0 0 _ (drilledYCylinder r R) ?_ ?_, ?_⟩
  · have := turnZ_back (Real.pi / 2) (steinmetz r R)
    rw [turn_steinmetz] at this
    rw [← this]
    exact (ycyl_compact r R hr.le hR).image (continuous_turnZ _)
  · rw [euler_turnZ, turn_steinmetz]
  · rw [C68_cylhole2 L rho r R hr hR, ofFn_low hL]

/-- The arrays of a body given by its density and by its mass are the same. -/
theorem density_mass (L : ℕ) (dens mass : ℝ) (S : Set V3) (hv : 0 < (volume S).toReal) (hm : mass = dens * (volume S).toReal) :
    Mom.ofFn L (densityInner dens S) = Mom.ofFn L (uniformMoment mass S) := by
  congr 1
  funext l m
  rw [densityInner, uniformMoment, hm, mul_div_cancel_right₀ _ hv.ne']

/-- C119: the numerical section of a cone is the closed form. -/
theorem C119_cone (L : ℕ) (dens phih R H : ℝ) (h0 : 0 < phih) (hpi : phih ≤ Real.pi) (hR : 0 < R) (hH : 0 < H) :
    QlmNum.coneMom L dens phih 0 R H = Qlm.cone L (dens * (phih * R ^ 2 * H / 3)) H R 0 phih := by
  rw [C63_cone_mom L dens phih 0 R H h0 hpi le_rfl hR hH, C36_cone L _ H R 0 phih hH hR h0 hpi]
  have e : coneSection phih 0 R H = coneOver H (sector 0 R 0 phih) := by
    ext v
    constructor
    · rintro ⟨r, phi, h1, h2, h3, h4, e0, e1, g1, g2⟩
      rw [sub_zero] at g2
      have hz : v 2 ≤ H := by
        by_contra hc; push Not at hc
        nlinarith
      by_cases hzH : v 2 = H
      · have hr : r = 0 := by
          rw [hzH] at g2
          nlinarith
        refine ⟨0, le_rfl, zero_le_one, (0, 0), ⟨0, 0, le_rfl, hR.le, by linarith, by linarith, by simp, by simp⟩, ?_, ?_, ?_⟩
        · rw [e0, hr]; simp
        · rw [e1, hr]; simp
        · rw [hzH]; ring
      · have hlt : v 2 < H := lt_of_le_of_ne hz hzH
        have hs : 0 < 1 - v 2 / H := by
          rw [sub_pos, div_lt_one hH]; exact hlt
        refine ⟨1 - v 2 / H, hs.le, ?_, (r / (1 - v 2 / H) * Real.cos phi, r / (1 - v 2 / H) * Real.sin phi),
          ⟨r / (1 - v 2 / H), phi, by positivity, ?_, by linarith, by linarith, rfl, rfl⟩, ?_, ?_, ?_⟩
        · have : 0 ≤ v 2 / H := by positivity
          linarith
        · rw [div_le_iff₀ hs]
          have : R * (1 - v 2 / H) = (H * R - v 2 * R) / H := by field_simp
          rw [this, le_div_iff₀ hH]; linarith
        · rw [e0]; simp only; field_simp
        · rw [e1]; simp only; field_simp
        · field_simp; ring
    · rintro ⟨s, hs0, hs1, ⟨x, y⟩, ⟨r, phi, h1, h2, h3, h4, e0, e1⟩, f0, f1, f2⟩
      simp only at e0 e1 f0 f1
      refine ⟨s * r, phi, by positivity, ?_, by linarith, by linarith, ?_, ?_, ?_, ?_⟩
      · nlinarith
      · rw [f0, e0]; ring
      · rw [f1, e1]; ring
      · rw [f2]; nlinarith
      · rw [f2, sub_zero]
        have : s * r ≤ s * R := mul_le_mul_of_nonneg_left h2 hs0
        nlinarith
  have hv : (volume (coneOver H (sector 0 R 0 phih))).toReal = phih * R ^ 2 * H / 3 := by
    rw [cone_vol H hH _ (sector_compact _ _ _ _), area_sector 0 R 0 phih le_rfl hR.le h0.le hpi]; ring
  rw [e, density_mass L dens _ _ (by rw [hv]; positivity) (by rw [hv])]

/-- C119: the numerical trapezoid of inner radius zero is the isosceles triangular prism. -/
theorem C119_trapezoid_triangle (L : ℕ) (dens phih R H : ℝ) (h0 : 0 < phih) (h2 : phih < Real.pi / 2) (hR : 0 < R) (hH : 0 < H) :
    QlmNum.trapMom L dens phih 0 R (-(H / 2)) (H / 2) =
      Qlm.triIsoPrism2 L (dens * (R ^ 2 * Real.cos phih * Real.sin phih * H)) H R 0 phih := by
  have hc : 0 < Real.cos phih := Real.cos_pos_of_mem_Ioo ⟨by linarith, h2⟩
  have hs : 0 < Real.sin phih := Real.sin_pos_of_pos_of_lt_pi h0 (by linarith)
  have e : slab (-(H / 2)) (H / 2) (radialTrapezoid phih 0 R) =
      prism H (triangle (R * Real.cos phih, -(R * Real.sin phih)) (R * Real.cos phih, R * Real.sin phih)) := by
    ext v
    simp only [slab, prism, Set.mem_setOf_eq]
    refine and_congr_right fun _ => and_congr_right fun _ => ?_
    rw [mem_triangle _ _ _ (by positivity) (by nlinarith [mul_pos hR hs])]
    simp only [radialTrapezoid, Set.mem_setOf_eq, zero_mul]
    constructor
    · rintro ⟨g1, g2, g3⟩
      have e : v 0 / (R * Real.cos phih) * (R * Real.sin phih) = v 0 * Real.sin phih / Real.cos phih := by
        field_simp
      have g4 : |v 1| ≤ v 0 * Real.sin phih / Real.cos phih := by rwa [le_div_iff₀ hc]
      rw [abs_le] at g4
      refine ⟨v 0 / (R * Real.cos phih), by positivity, by rw [div_le_one (by positivity)]; exact g2, by field_simp, ?_, ?_⟩
      · rw [mul_neg, e]; exact g4.1
      · rw [e]; exact g4.2
    · rintro ⟨s, g1, g2, g3, g4, g5⟩
      refine ⟨by rw [g3]; positivity, by rw [g3]; nlinarith [mul_pos hR hc], ?_⟩
      have : |v 1| ≤ s * (R * Real.sin phih) := abs_le.2 ⟨by linarith, g5⟩
      rw [g3]
      nlinarith
  rw [C63_trap_mom L dens phih 0 R _ _ h0 h2 le_rfl hR.le hR (by linarith), e, C36_tri_iso_prism2 L _ H R 0 phih hH hR h0 h2]
  simp only [zero_sub, zero_add, Real.cos_neg, Real.sin_neg, mul_neg]
  have hv : (volume (prism H (triangle (R * Real.cos phih, -(R * Real.sin phih)) (R * Real.cos phih, R * Real.sin phih)))).toReal =
      R ^ 2 * Real.cos phih * Real.sin phih * H := by
    rw [prism_vol H hH, vol_triangle (by positivity) (by nlinarith [mul_pos hR hs])]
    ring
  rw [density_mass L dens _ _ (by rw [hv]; positivity) (by rw [hv])]

theorem radialSlab_compact (phih IR OR H : ℝ) (h0 : 0 < phih) (h2 : phih < Real.pi / 2) (hI : 0 ≤ IR) (hR : 0 < OR) :
    IsCompact (slab (-(H / 2)) (H / 2) (radialTrapezoid phih IR OR)) := by
  have hc : 0 < Real.cos phih := Real.cos_pos_of_mem_Ioo ⟨by linarith, h2⟩
  have hs : 0 < Real.sin phih := Real.sin_pos_of_pos_of_lt_pi h0 (by linarith)
  refine compact_of_bound _ ?_ (|H| + OR) ?_
  · have c1 : IsClosed {v : V3 | -(H / 2) ≤ v 2} := isClosed_le (by fun_prop) (by fun_prop)
    have c2 : IsClosed {v : V3 | v 2 ≤ H / 2} := isClosed_le (by fun_prop) (by fun_prop)
    have c3 : IsClosed {v : V3 | IR * Real.cos phih ≤ v 0} := isClosed_le (by fun_prop) (by fun_prop)
    have c4 : IsClosed {v : V3 | v 0 ≤ OR * Real.cos phih} := isClosed_le (by fun_prop) (by fun_prop)
    have c5 : IsClosed {v : V3 | |v 1| * Real.cos phih ≤ v 0 * Real.sin phih} := isClosed_le (by fun_prop) (by fun_prop)
    exact c1.inter (c2.inter (c3.inter (c4.inter c5)))
  · rintro v ⟨g1, g2, g3, g4, g5⟩ i
    simp only at g3 g4 g5
    have hH := le_abs_self H
    have hH0 := abs_nonneg H
    have c1 := Real.cos_le_one phih
    have s1 := Real.sin_le_one phih
    have hv0 : 0 ≤ v 0 := le_trans (by positivity) g3
    fin_cases i
    · simp only [Fin.zero_eta]
      rw [abs_of_nonneg hv0]
      nlinarith
    · simp only [Fin.mk_one]
      have : |v 1| * Real.cos phih ≤ OR * Real.cos phih := g5.trans (by nlinarith)
      have := le_of_mul_le_mul_right this hc
      linarith
    · simp only [Fin.reduceFinMk]
      rw [abs_le]; constructor <;> linarith

/-- C119: the numerical trapezoid with its corners on two circles is the difference of two triangular prisms. -/
theorem C119_trapezoid (L : ℕ) (dens phih IR OR H : ℝ) (h0 : 0 < phih) (h2 : phih < Real.pi / 2) (hI : 0 < IR) (hO : IR < OR)
    (hH : 0 < H) :
    ∃ q q1 q2, QlmNum.trapMom L dens phih IR OR (-(H / 2)) (H / 2) = .ok q ∧
      Qlm.triIsoPrism2 L (dens * (OR ^ 2 * Real.cos phih * Real.sin phih * H)) H OR 0 phih = .ok q1 ∧
      Qlm.triIsoPrism2 L (dens * (IR ^ 2 * Real.cos phih * Real.sin phih * H)) H IR 0 phih = .ok q2 ∧
      ∀ l m, q.get l m = q1.get l m - q2.get l m := by
  have hOp : 0 < OR := hI.trans hO
  have hc : 0 < Real.cos phih := Real.cos_pos_of_mem_Ioo ⟨by linarith, h2⟩
  have hs : 0 < Real.sin phih := Real.sin_pos_of_pos_of_lt_pi h0 (by linarith)
  refine ⟨_, _, _, C63_trap_mom L dens phih IR OR _ _ h0 h2 hI.le hO.le hOp (by linarith),
    (C119_trapezoid_triangle L dens phih OR H h0 h2 hOp hH).symm.trans
      (C63_trap_mom L dens phih 0 OR _ _ h0 h2 le_rfl hOp.le hOp (by linarith)),
    (C119_trapezoid_triangle L dens phih IR H h0 h2 hI hH).symm.trans
      (C63_trap_mom L dens phih 0 IR _ _ h0 h2 le_rfl hI.le hI (by linarith)), fun l m => ?_⟩
  have cut := inner_cut dens (IR * Real.cos phih) _ _ _ (radialSlab_compact phih 0 OR H h0 h2 le_rfl hOp)
    (radialSlab_compact phih 0 IR H h0 h2 le_rfl hI) (radialSlab_compact phih IR OR H h0 h2 hI.le hOp) ?_ ?_ ?_
  · by_cases hl : l ≤ L
    · by_cases hm : m.natAbs ≤ L
      · rw [Mom.get_ofFn _ hl hm, Mom.get_ofFn _ hl hm, Mom.get_ofFn _ hl hm, eq_sub_iff_add_eq, add_comm]
        have := cut l m
        rw [inner_filled, inner_filled, inner_filled] at this
        rw [densityInner, densityInner, densityInner, this]
      · rw [Mom.get_out _ (by omega), Mom.get_out _ (by omega), Mom.get_out _ (by omega), sub_zero]
    · rw [Mom.get_out _ (by omega), Mom.get_out _ (by omega), Mom.get_out _ (by omega), sub_zero]
  · ext v
    simp only [slab, radialTrapezoid, Set.mem_union, Set.mem_setOf_eq, zero_mul]
    constructor
    · rintro ⟨g1, g2, g3, g4, g5⟩
      rcases le_total (v 0) (IR * Real.cos phih) with h | h
      · exact Or.inl ⟨g1, g2, g3, h, g5⟩
      · exact Or.inr ⟨g1, g2, h, g4, g5⟩
    · rintro (⟨g1, g2, g3, g4, g5⟩ | ⟨g1, g2, g3, g4, g5⟩)
      · exact ⟨g1, g2, g3, g4.trans (by nlinarith), g5⟩
      · exact ⟨g1, g2, le_trans (by positivity) g3, g4, g5⟩
  · rintro v ⟨g1, g2, g3, g4, g5⟩; exact g4
  · rintro v ⟨g1, g2, g3, g4, g5⟩; exact g3

/-- The hypotheses can be met. -/
example : ∃ q q', QlmNum.platehole 5 1 1 (1 / 2) (Real.pi / 3) = .ok q ∧ rotate_qlm q 0 (Real.pi / 3) 0 = some q' ∧
    QlmACH.platehole 5 1 1 (1 / 2) (Real.pi / 3) = .ok q' :=
  C119_platehole 5 le_rfl 1 1 (1 / 2) (Real.pi / 3) one_pos (by norm_num)
    (by rw [abs_of_pos (by positivity)]; linarith [Real.pi_pos])

example : ∃ q q', QlmNum.steinmetz 5 1 2 5 = .ok q ∧ rotate_qlm q (Real.pi / 2) 0 0 = some q' ∧
    QlmACH.cylhole2 5 1 2 5 = .ok q' := C119_cylhole 5 le_rfl 1 2 5 (by norm_num) (by norm_num)

end Newt
