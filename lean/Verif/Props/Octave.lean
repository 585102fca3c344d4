import Verif.Model.Octave
import Verif.Spec.Octave
import Verif.Props.Glib
import Verif.Props.Pg2Multi

/-!
# C91-C93: the Octave implementation of point gravity, rotations and moments (`matlab-src`)
-/

namespace Newt

open Spec

/-! ## C91: forces and torques -/

theorem oct_G : Oct.G = BIG_G := by rw [Oct.G, BIG_G]

theorem oct_cross (a b : V3) : Oct.cross a b = crossProduct a b := by
  rw [Oct.cross, cross_apply]

theorem oct_zip {α : Type*} (B : List α) (f : α → V3) (g : α → ℝ) (w : α → ℝ → ℝ) :
    List.zipWith (fun (d : V3) (c : ℝ) => c • d) (B.map f) (List.zipWith w B (B.map g))
      = B.map fun b => w b (g b) • f b := by
  induction B with
  | nil => rfl
  | cons b B ih => simp only [List.map_cons, List.zipWith_cons_cons, ih]

theorem oct_gmmr2 (p : Pt) (B : PtArray) : Oct.Gmmr2Array p B = gmmr2_array p B := by
  have hmod : ∀ d : V3, Real.sqrt (d 0 * d 0 + d 1 * d 1 + d 2 * d 2) = modulus d := by
    intro d; rw [modulus]; congr 1; ring
  by_cases h : ∀ b ∈ B, p.pos ≠ b.pos
  · rw [gmmr2_array_some h, Oct.Gmmr2Array, if_neg]
    · simp only [List.map_map]
      rw [oct_zip]
      congr 2
      refine List.map_congr_left fun b _ => ?_
      simp only [Function.comp, hmod, oct_G, gW]
    · simp only [List.map_map, List.any_map, List.any_eq_true, not_exists, not_and, Function.comp, hmod, decide_eq_true_eq]
      intro b hb e
      exact h b hb (sub_eq_zero.1 ((modulus_eq_zero _).1 e)).symm
  · push Not at h
    rw [gmmr2_array_none h, Oct.Gmmr2Array, if_pos]
    obtain ⟨b, hb, e⟩ := h
    simp only [List.map_map, List.any_map, List.any_eq_true, Function.comp, hmod, decide_eq_true_eq]
    exact ⟨b, hb, by rw [e, sub_self]; exact (modulus_eq_zero _).2 rfl⟩

theorem oct_fold_none (B : PtArray) : ∀ A : PtArray,
    A.foldl (fun acc p => acc.bind fun ft => (gmmr2_array p B).map fun iforce =>
      (ft.1 + iforce, ft.2 + crossProduct p.pos iforce)) (none : Option (V3 × V3)) = none
  | [] => rfl
  | _ :: A => oct_fold_none B A

theorem oct_fold (B : PtArray) : ∀ (A : PtArray) (acc : V3 × V3),
    A.foldl (fun acc p => acc.bind fun ft => (Oct.Gmmr2Array p B).map fun iforce =>
      (ft.1 + iforce, ft.2 + Oct.cross p.pos iforce)) (some acc) = accumulate (fun p => gmmr2_array p B) A acc
  | [], acc => rfl
  | p :: A, acc => by
    rw [List.foldl_cons, accumulate]
    simp only [Option.bind_some, oct_gmmr2, oct_cross]
    rcases gmmr2_array p B with _ | f
    · simp only [Option.map_none, Option.bind_none]
      exact oct_fold_none B A
    · simp only [Option.map_some, Option.bind_some]
      have := oct_fold B A (acc.1 + f, acc.2 + crossProduct p.pos f)
      simpa only [oct_gmmr2, oct_cross] using this

/-- C91: the Octave and the Python implementation return the same force and torque for all arrays, also in the
undefined cases. -/
theorem C91_gravity_agrees (A B : PtArray) : Oct.pointMatrixGravity A B = point_matrix_gravity A B := oct_fold B A (0, 0)

/-- C91: the result is Newton's force and its torque about the origin when no two points coincide, and undefined
otherwise. -/
theorem C91_gravity_newton (A B : PtArray) :
    (Apart A B → Oct.pointMatrixGravity A B = some (newtonForce A B, newtonTorque A B)) ∧
    (¬ Apart A B → Oct.pointMatrixGravity A B = none) := by
  refine ⟨fun h => ?_, fun h => by rw [C91_gravity_agrees, pmg_none h]⟩
  rw [C91_gravity_agrees, pmg_some h, totT_eq]
  simp only [totF, newtonForce, newtonTorque, gW, dist3_eq, map_smul]

/-- C91: both implementations move arrays in the same way. -/
theorem C91_translate_agrees (A : PtArray) (d : V3) : Oct.translatePMArray A d = translate_point_array A d := rfl

example : Oct.pointMatrixGravity [⟨1, ![0, 1, 0]⟩] [⟨1, ![1, 1, 0]⟩] =
    some (newtonForce [⟨1, ![0, 1, 0]⟩] [⟨1, ![1, 1, 0]⟩], newtonTorque [⟨1, ![0, 1, 0]⟩] [⟨1, ![1, 1, 0]⟩]) :=
  (C91_gravity_newton _ _).1 (by
    intro a ha b hb e
    simp only [List.mem_singleton] at ha hb
    subst ha hb
    have := congrFun e 0
    simp at this)

/-! ## C92: rotations -/

theorem oct_R (t : ℝ) (u : V3) (hu : u 0 ^ 2 + u 1 ^ 2 + u 2 ^ 2 = 1) : Oct.R t (u 0) (u 1) (u 2) = rotR (-t) u := by
  have hc : 2 * Real.sin (-t / 2) ^ 2 = 1 - Real.cos t := by
    rw [neg_div, Real.sin_neg, neg_sq]
    have := Real.cos_sq' (t / 2)
    have h2 := Real.cos_two_mul (t / 2)
    rw [mul_div_cancel₀ _ two_ne_zero] at h2
    linarith
  rw [rotR, hc, Real.sin_neg]
  ext i j
  have h0 : u 0 ^ 2 = 1 - u 1 ^ 2 - u 2 ^ 2 := by linarith
  fin_cases i <;> fin_cases j <;>
    simp [Oct.R, rotW, Matrix.mul_apply, Fin.sum_univ_three, Matrix.one_apply] <;> ring_nf <;>
    (try rw [h0]) <;> ring

theorem oct_modulus (v : V3) : Real.sqrt (v 0 * v 0 + v 1 * v 1 + v 2 * v 2) = modulus v := by
  rw [modulus]; congr 1; ring

/-- C92: the Octave rotation turns the opposite way: it is the Python rotation by `-angle`, for every array, angle and
axis, including a zero axis. -/
theorem C92_rotate_agrees (A : PtArray) (t : ℝ) (v : V3) :
    Oct.rotatePMArray A t v = rotate_point_array A (-t) v := by
  by_cases hv : v = 0
  · subst hv
    by_cases hA : A = []
    · subst hA; simp [Oct.rotatePMArray, rotate_point_array]
    · rw [C06_zero_axis _ _ hA, Oct.rotatePMArray]
      simp [hA]
  · have hm : modulus v ≠ 0 := fun e => hv ((modulus_eq_zero v).1 e)
    rw [rotate_some hv, Oct.rotatePMArray]
    simp only [oct_modulus]
    rw [if_neg hm]
    have hu : (v 0 / modulus v) ^ 2 + (v 1 / modulus v) ^ 2 + (v 2 / modulus v) ^ 2 = 1 := by
      have h2 : modulus v ^ 2 = v 0 ^ 2 + v 1 ^ 2 + v 2 ^ 2 := Real.sq_sqrt (by positivity)
      field_simp
      linarith
    have hR := oct_R t (fun i => v i / modulus v) hu
    rw [hR]
    split_ifs with hA
    · subst hA; rfl
    · rfl

/-- C92: seen from the tip of the axis vector the points are turned clockwise by `angle` (counter-clockwise as viewed from
the origin): the map is the textbook rotation by `-angle`. -/
theorem C92_rotate_is_rotation (t : ℝ) (v : V3) (hv : v ≠ 0) :
    ∃! f : V3 → V3, IsRotationAbout v (-t) f ∧
      ∀ A, Oct.rotatePMArray A t v = some (A.map fun p => ⟨p.mass, f p.pos⟩) := by
  simp only [C92_rotate_agrees]
  exact C06_rotate_is_rotation (-t) v hv

/-- C92: porting a script: the same call with the same angle gives a different result in the two implementations unless
`sin(angle) = 0`, for an array with a point off the axis. -/
theorem C92_rotate_differs (A : PtArray) (t : ℝ) (v : V3) (hv : v ≠ 0) (ht : Real.sin t ≠ 0)
    (hA : ∃ p ∈ A, crossProduct v p.pos ≠ 0) : Oct.rotatePMArray A t v ≠ rotate_point_array A t v := by
  rw [C92_rotate_agrees]
  intro h
  rw [rotate_some hv, rotate_some hv, Option.some.injEq] at h
  obtain ⟨p, hp, hc⟩ := hA
  have hpos : rotF (-t) v p.pos = rotF t v p.pos := by
    have := (List.map_inj_left.1 h) p hp
    exact (Pt.mk.injEq .. ▸ this).2
  have hvv : 0 < v ⬝ᵥ v := by
    have h := modulus_pos hv
    rw [modulus_eq_dot] at h
    exact Real.sqrt_pos.1 h
  -- split the position into its parts along and across the axis
  set a : ℝ := (v ⬝ᵥ p.pos) / (v ⬝ᵥ v) with ha
  set x : V3 := p.pos - a • v with hx
  have hperp : v ⬝ᵥ x = 0 := by
    rw [hx, dotProduct_sub, dotProduct_smul, smul_eq_mul, ha]; field_simp; ring
  have hsplit : p.pos = a • v + x := by rw [hx]; abel
  have r1 := rotF_isRotation hv (-t)
  have r2 := rotF_isRotation hv t
  rw [hsplit, r1.map_add, r2.map_add, r1.map_smul, r2.map_smul, r1.axis, r2.axis, add_right_inj, r1.plane x hperp,
    r2.plane x hperp, Real.cos_neg, add_right_inj, Real.sin_neg, neg_div, neg_smul] at hpos
  have hz : (2 * (Real.sin t / Real.sqrt (v ⬝ᵥ v))) • crossProduct v x = 0 := by
    rw [two_mul, add_smul]
    nth_rewrite 1 [← hpos]
    simp
  rcases smul_eq_zero.1 hz with h0 | h0
  · have : Real.sqrt (v ⬝ᵥ v) ≠ 0 := (Real.sqrt_pos.2 hvv).ne'
    rw [mul_eq_zero, div_eq_zero_iff] at h0
    rcases h0 with h0 | h0 | h0
    · norm_num at h0
    · exact ht h0
    · exact this h0
  · apply hc
    rw [hsplit, map_add, map_smul, cross_self, smul_zero, zero_add, h0]

example : Oct.rotatePMArray [⟨1, ![1, 0, 0]⟩] 1 ![0, 0, 1] ≠ rotate_point_array [⟨1, ![1, 0, 0]⟩] 1 ![0, 0, 1] :=
  C92_rotate_differs _ _ _ (fun e => by have := congrFun e 2; simp at this)
    (Real.sin_pos_of_pos_of_lt_pi one_pos (by linarith [Real.pi_gt_three])).ne'
    ⟨_, List.mem_singleton.2 rfl, fun e => by have := congrFun e 1; simp [cross_apply] at this⟩

/-! ## C93: moments -/

theorem oct_YLM (l m : ℕ) (theta phi : ℝ) : Oct.YLM l m theta phi = sphHarm m l phi theta := by
  simp only [Oct.YLM, Oct.legendre_sphPlm, sphHarm, Int.natAbs_natCast, Int.natCast_nonneg, if_true]
  push_cast
  ring

theorem uPoly_mirrorZ (p : Pt) : uPoly (mirrorZ p).pos = (uPoly p.pos).comp (-Polynomial.X) := by
  simp only [mirrorZ, uPoly, Matrix.cons_val, Polynomial.add_comp, Polynomial.mul_comp, Polynomial.C_comp,
    Polynomial.pow_comp, Polynomial.X_comp]
  push_cast
  rw [Polynomial.C_neg]
  ring

theorem solidS_mirrorZ (l : ℕ) (m : ℤ) (p : Pt) :
    solidS l m (mirrorZ p).pos = (-1) ^ ((l : ℤ) + m) * solidS l m p.pos := by
  rw [solidS, solidS, Rsol, Rsol, uPoly_mirrorZ, ← Polynomial.pow_comp, zc_comp_neg_X]
  ring

theorem oct_phi (x y z : ℝ) (h : x ≠ 0 ∨ y ≠ 0) :
    Real.sqrt (x ^ 2 + y ^ 2) * Real.cos (Oct.phiOf x y z) = x ∧
    Real.sqrt (x ^ 2 + y ^ 2) * Real.sin (Oct.phiOf x y z) = y := by
  have hr : 0 < Real.sqrt (x ^ 2 + y ^ 2 + z ^ 2) := by
    apply Real.sqrt_pos.2
    rcases h with h | h <;> positivity
  rw [Oct.phiOf, if_pos hr]
  by_cases hx : x = 0
  · subst hx
    have hy : y ≠ 0 := by simpa using h
    simp only [if_true, lt_irrefl, if_false]
    rw [show (0 : ℝ) ^ 2 + y ^ 2 = y ^ 2 by ring, Real.sqrt_sq_eq_abs]
    rcases lt_or_gt_of_ne hy with hn | hp
    · rw [if_neg (by linarith), if_pos hn, Real.cos_neg, Real.sin_neg, Real.cos_pi_div_two, Real.sin_pi_div_two, abs_of_neg hn]
      constructor <;> ring
    · rw [if_pos hp, Real.cos_pi_div_two, Real.sin_pi_div_two, abs_of_pos hp]
      constructor <;> ring
  · simp only [if_neg hx]
    have hs : Real.sqrt (x ^ 2 + y ^ 2) = |x| * Real.sqrt (1 + (y / x) ^ 2) := by
      rw [← Real.sqrt_sq_eq_abs, ← Real.sqrt_mul (by positivity)]
      congr 1
      field_simp
    have hp : 0 < Real.sqrt (1 + (y / x) ^ 2) := by positivity
    rcases lt_or_gt_of_ne hx with hn | hg
    · rw [if_pos hn, Real.cos_add_pi, Real.sin_add_pi, Real.cos_arctan, Real.sin_arctan, hs, abs_of_neg hn]
      constructor <;> field_simp
    · rw [if_neg (by linarith), Real.cos_arctan, Real.sin_arctan, hs, abs_of_pos hg]
      constructor <;> field_simp

/-- The contribution of one row. -/
theorem oct_moment_row (l m : ℕ) (hm : m ≤ l) (p : Pt) [Decidable (OnAxis p)] :
    (Real.sqrt (p.pos 0 ^ 2 + p.pos 1 ^ 2 + p.pos 2 ^ 2) : ℂ) ^ l * (starRingEnd ℂ)
      (Oct.YLM l m (Oct.thetaOf (p.pos 0) (p.pos 1) (p.pos 2)) (Oct.phiOf (p.pos 0) (p.pos 1) (p.pos 2)))
      = solidS l m (if OnAxis p then p else mirrorZ p).pos := by
  set x := p.pos 0 with hx
  set y := p.pos 1 with hy
  set z := p.pos 2 with hz
  rw [oct_YLM]
  set r := Real.sqrt (x ^ 2 + y ^ 2 + z ^ 2) with hr
  have key : ∀ (theta phi : ℝ) (w : V3), 0 ≤ Real.sin theta → sphericalV r theta phi = w →
      (r : ℂ) ^ l * (starRingEnd ℂ) (sphHarm m l phi theta) = solidS l m w := by
    intro theta phi w hs e
    rw [sphHarm_nat r theta phi hs l m hm, e, solidS]
  by_cases ha : OnAxis p
  · rw [if_pos ha]
    obtain ⟨h0, h1⟩ := ha
    have hxy : Real.sqrt (x ^ 2 + y ^ 2) = 0 := by rw [hx, hy, h0, h1]; simp
    have hr' : r = |z| := by rw [hr, hx, hy, h0, h1, ← Real.sqrt_sq_eq_abs]; congr 1; ring
    have hpos : p.pos = ![0, 0, z] := by
      ext i; fin_cases i
      · exact h0
      · exact h1
      · rfl
    by_cases hz0 : z < 0
    · have : 0 < r := by rw [hr']; exact abs_pos.2 hz0.ne
      refine key _ _ _ ?_ ?_
      · rw [Oct.thetaOf, if_pos this]; simp [hxy, hz0]
      · rw [Oct.thetaOf, if_pos this, hpos]
        simp [hxy, hz0, sphericalV, hr', abs_of_neg hz0]
    · refine key _ _ _ ?_ ?_
      · rw [Oct.thetaOf]
        simp [hxy, hz0]
      · have e : Oct.thetaOf x y z = 0 := by
          rw [Oct.thetaOf]; simp [hxy, hz0]
        rw [e, hpos]
        simp [sphericalV, hr', abs_of_nonneg (not_lt.1 hz0)]
  · rw [if_neg ha]
    have hne : x ≠ 0 ∨ y ≠ 0 := by
      by_contra hc; push Not at hc; exact ha hc
    have hrho : 0 < Real.sqrt (x ^ 2 + y ^ 2) := by
      apply Real.sqrt_pos.2; rcases hne with h | h <;> positivity
    have hrpos : 0 < r := by
      apply Real.sqrt_pos.2; rcases hne with h | h <;> positivity
    obtain ⟨hc, hs⟩ := oct_phi x y z hne
    set rho := Real.sqrt (x ^ 2 + y ^ 2) with hrho'
    have hth : Oct.thetaOf x y z = Real.arctan (z / rho) + Real.pi / 2 := by
      rw [Oct.thetaOf, if_pos hrpos]
      exact if_neg hrho.ne'
    have hrr : r = rho * Real.sqrt (1 + (z / rho) ^ 2) := by
      have : rho = Real.sqrt (rho ^ 2) := (Real.sqrt_sq hrho.le).symm
      rw [hr]
      conv_rhs => lhs; rw [this]
      rw [← Real.sqrt_mul (by positivity)]
      congr 1
      have h2 : rho ^ 2 = x ^ 2 + y ^ 2 := Real.sq_sqrt (by positivity)
      field_simp
      rw [h2]
    have hq : 0 < Real.sqrt (1 + (z / rho) ^ 2) := by positivity
    have hsin : r * Real.sin (Oct.thetaOf x y z) = rho := by
      rw [hth, Real.sin_add_pi_div_two, Real.cos_arctan, hrr]; field_simp
    have hcos : r * Real.cos (Oct.thetaOf x y z) = -z := by
      rw [hth, Real.cos_add_pi_div_two, Real.sin_arctan, hrr]; field_simp
    refine key _ _ _ ?_ ?_
    · have : 0 < r * Real.sin (Oct.thetaOf x y z) := by rw [hsin]; exact hrho
      exact (pos_of_mul_pos_right this hrpos.le).le
    · ext i
      fin_cases i
      · show r * Real.sin _ * Real.cos _ = x
        rw [hsin, hc]
      · show r * Real.sin _ * Real.sin _ = y
        rw [hsin, hs]
      · show r * Real.cos _ = -z
        rw [hcos]

theorem oct_foldl_sum (f : Pt → ℂ) : ∀ (A : PtArray) (a : ℂ), A.foldl (fun s p => s + f p) a = a + (A.map f).sum
  | [], a => by simp
  | p :: A, a => by rw [List.foldl_cons, oct_foldl_sum f A]; simp [add_assoc]

/-- C93: `computeMoments` returns the inner moment of a different array: every point off the z axis is replaced by its
mirror image in the plane `z = 0`. -/
theorem C93_computeMoments (l m : ℕ) (hm : m ≤ l) (A : PtArray) :
    Oct.computeMoments l m A = innerMoment (mirrorOffAxis A) l m := by
  classical
  rw [Oct.computeMoments, oct_foldl_sum, zero_add, innerMoment, mirrorOffAxis, List.map_map]
  congr 1
  refine List.map_congr_left fun p _ => ?_
  rw [mul_assoc, oct_moment_row l m hm p, Function.comp]
  split_ifs <;> rfl

/-- C93: with `l + m` even, and for arrays whose points off the axis lie in the plane `z = 0`, the result is the inner
moment itself. -/
theorem C93_right (l m : ℕ) (hm : m ≤ l) (A : PtArray) (h : Even (l + m) ∨ ∀ p ∈ A, OnAxis p ∨ p.pos 2 = 0) :
    Oct.computeMoments l m A = innerMoment A l m := by
  classical
  rw [C93_computeMoments l m hm, innerMoment, mirrorOffAxis, List.map_map, innerMoment]
  congr 1
  refine List.map_congr_left fun p hp => ?_
  rw [Function.comp]
  split_ifs with ha
  · rfl
  · rcases h with h | h
    · rw [solidS_mirrorZ, show ((l : ℤ) + m) = ((l + m : ℕ) : ℤ) by push_cast; ring, zpow_natCast, h.neg_one_pow, one_mul]
      rfl
    · have hz := (h p hp).resolve_left ha
      have : mirrorZ p = p := by
        obtain ⟨pm, pp⟩ := p
        simp only [mirrorZ, Pt.mk.injEq, true_and]
        ext i
        fin_cases i
        · rfl
        · rfl
        · show -pp 2 = pp 2
          have hz' : pp 2 = 0 := hz
          rw [hz', neg_zero]
      rw [this]

/-- C93: with `l + m` odd and no point on the z axis the result has the wrong sign. -/
theorem C93_wrong_sign (l m : ℕ) (hm : m ≤ l) (A : PtArray) (h : Odd (l + m)) (hA : ∀ p ∈ A, ¬ OnAxis p) :
    Oct.computeMoments l m A = -innerMoment A l m := by
  classical
  rw [C93_computeMoments l m hm, innerMoment, mirrorOffAxis, List.map_map, innerMoment]
  induction A with
  | nil => simp
  | cons p A ih =>
    have hp := hA p List.mem_cons_self
    rw [List.map_cons, List.map_cons, List.sum_cons, List.sum_cons, neg_add, Function.comp, if_neg hp, solidS_mirrorZ,
      show ((l : ℤ) + m) = ((l + m : ℕ) : ℤ) by push_cast; ring, zpow_natCast, h.neg_one_pow,
      ih fun q hq => hA q (List.mem_cons_of_mem _ hq)]
    simp only [mirrorZ]
    ring

/-- C93: what the mixture of the two rules does: rotating a point from the axis off the axis makes the `l = 1, m = 0`
moment of a unit mass at height 1 jump from `sqrt(3/(4 pi))` to its negative. -/
theorem C93_jump (x : ℝ) (hx : x ≠ 0) :
    Oct.computeMoments 1 0 [⟨1, ![0, 0, 1]⟩] = (Real.sqrt (3 / (4 * Real.pi)) : ℝ) ∧
    Oct.computeMoments 1 0 [⟨1, ![x, 0, 1]⟩] = -(Real.sqrt (3 / (4 * Real.pi)) : ℝ) := by
  have h10 : ∀ v : V3, solidS 1 0 v = (Real.sqrt (3 / (4 * Real.pi)) : ℝ) * (v 2 : ℂ) := by
    intro v
    have hN : Nlm 1 0 = Real.sqrt (3 / (4 * Real.pi)) := by
      rw [Nlm]; norm_num
    rw [solidS, hN, Rsol]
    congr 1
    rw [pow_one, show ((1 : ℕ) : ℤ) + 0 = ((1 : ℕ) : ℤ) by norm_num, zc_nat, uPoly]
    simp [Polynomial.coeff_X, Polynomial.coeff_C]
  constructor
  · rw [C93_right 1 0 (by norm_num) _ (Or.inr (by
      intro p hp
      rw [List.mem_singleton] at hp
      subst hp
      exact Or.inl ⟨rfl, rfl⟩))]
    simp [innerMoment, h10]
  · rw [C93_wrong_sign 1 0 (by norm_num) _ (by decide) (by
      intro p hp
      rw [List.mem_singleton] at hp
      subst hp
      exact fun h => hx h.1)]
    simp [innerMoment, h10]

/-- C93: the summary lists exactly the degrees `1 <= l <= maxL` with `0 <= m <= l`, each once and in order; the monopole
is left out. -/
theorem C93_summary (maxL : ℕ) (A : PtArray) :
    (∀ l m c, (l, m, c) ∈ Oct.computeMomentSummary maxL A ↔
      1 ≤ l ∧ l ≤ maxL ∧ m ≤ l ∧ c = innerMoment (mirrorOffAxis A) l m) ∧
    ((Oct.computeMomentSummary maxL A).map fun t => (toLex (t.1, t.2.1) : ℕ ×ₗ ℕ)).Pairwise (· < ·) ∧
    2 * (Oct.computeMomentSummary maxL A).length = maxL * (maxL + 3) := by
  refine ⟨fun l m c => ?_, ?_, ?_⟩
  · simp only [Oct.computeMomentSummary, List.mem_flatMap, List.mem_map, List.mem_range, Prod.mk.injEq]
    constructor
    · rintro ⟨l', hl', m', hm', rfl, rfl, rfl⟩
      exact ⟨by omega, by omega, by omega, C93_computeMoments _ _ (by omega) A⟩
    · rintro ⟨h1, h2, h3, rfl⟩
      refine ⟨l - 1, by omega, m, by omega, by omega, rfl, ?_⟩
      rw [show l - 1 + 1 = l by omega, C93_computeMoments _ _ h3]
  · induction maxL with
    | zero => simp [Oct.computeMomentSummary]
    | succ n ih =>
      have e : Oct.computeMomentSummary (n + 1) A = Oct.computeMomentSummary n A ++
          (List.range (n + 2)).map fun m => (n + 1, m, Oct.computeMoments (n + 1) m A) := by
        simp [Oct.computeMomentSummary, List.range_succ]
      rw [e, List.map_append, List.pairwise_append]
      refine ⟨ih, ?_, ?_⟩
      · rw [List.map_map]
        refine (List.pairwise_lt_range (n := n + 2)).map _ fun a b hab => ?_
        exact Prod.Lex.toLex_lt_toLex.2 (Or.inr ⟨rfl, hab⟩)
      · intro a ha b hb
        simp only [Oct.computeMomentSummary, List.mem_map, List.mem_flatMap, List.mem_range] at ha hb
        obtain ⟨_, ⟨l', hl', m', hm', rfl⟩, rfl⟩ := ha
        obtain ⟨_, ⟨m'', hm'', rfl⟩, rfl⟩ := hb
        exact Prod.Lex.toLex_lt_toLex.2 (Or.inl (by show l' + 1 < n + 1; omega))
  · induction maxL with
    | zero => simp [Oct.computeMomentSummary]
    | succ n ih =>
      have e : Oct.computeMomentSummary (n + 1) A = Oct.computeMomentSummary n A ++
          (List.range (n + 2)).map fun m => (n + 1, m, Oct.computeMoments (n + 1) m A) := by
        simp [Oct.computeMomentSummary, List.range_succ]
      rw [e, List.length_append, List.length_map, List.length_range, mul_add, ih]
      ring

example : Oct.computeMoments 2 1 [⟨1, ![1, 2, 3]⟩, ⟨2, ![1, 0, -3]⟩] = -innerMoment [⟨1, ![1, 2, 3]⟩, ⟨2, ![1, 0, -3]⟩] 2 1 :=
  C93_wrong_sign 2 1 (by norm_num) _ (by decide) (by
    intro p hp h
    simp only [List.mem_cons, List.not_mem_nil, or_false] at hp
    rcases hp with rfl | rfl
    · exact one_ne_zero h.1
    · exact one_ne_zero h.1)

end Newt
