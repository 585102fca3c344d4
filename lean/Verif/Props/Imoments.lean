import Verif.Props.Pg2Multi
import Mathlib.Analysis.Complex.ExponentialBounds

/-!
# Property C17: the Yukawa inner moments `imoment`, `imoments`

`iN n x` stands for `sp.spherical_in(n, x)`; the general statements hold for any such function, the
witness of disagreement uses the actual modified spherical Bessel functions.
-/

namespace Newt

open Spec

theorem sphHarm_neg (m : ℤ) (n : ℕ) (a b : ℝ) :
    sphHarm (-m) n a b = (-1) ^ m.natAbs * (starRingEnd ℂ) (sphHarm m n a b) := by
  have hsq : ∀ k : ℕ, ((-1 : ℂ)) ^ k * (-1) ^ k = 1 := neg_one_sq_pow
  rcases lt_trichotomy m 0 with h | h | h
  · simp only [sphHarm, Int.natAbs_neg, if_neg (not_le.2 h), if_pos (show (0 : ℤ) ≤ -m by omega)]
    simp only [map_mul, map_pow, map_neg, map_one, Complex.conj_conj]
    rw [← mul_assoc, hsq, one_mul]
  · subst h
    simp [sphHarm]
  · simp only [sphHarm, Int.natAbs_neg, if_pos h.le, if_neg (show ¬ (0 : ℤ) ≤ -m by omega)]

/-- The textbook Yukawa inner moment with radial functions `iN`, rows in spherical coordinates. -/
noncomputable def Spec.yukawaInner (w : ℝ → ℝ) (S : List SphPt) (l : ℕ) (m : ℤ) : ℂ :=
  (S.map fun s => ((s.mass * w s.r : ℝ) : ℂ) * (starRingEnd ℂ) (sphHarm m l s.phi s.theta)).sum

theorem yukawaInner_neg (w : ℝ → ℝ) (S : List SphPt) (l : ℕ) (m : ℤ) :
    yukawaInner w S l (-m) = (-1) ^ m.natAbs * (starRingEnd ℂ) (yukawaInner w S l m) := by
  induction S with
  | nil => simp [yukawaInner]
  | cons s S ih =>
    simp only [yukawaInner, List.map_cons, List.sum_cons, map_add, map_mul, mul_add] at ih ⊢
    rw [ih, sphHarm_neg]
    simp only [map_mul, map_pow, map_neg, map_one, Complex.conj_conj, Complex.conj_ofReal]
    ring

/-- For a point off the origin the harmonics do not depend on the choice of angles. -/
theorem sphHarm_row_spherical (s : SphPt) (hs : s.Ok) (l : ℕ) (m : ℤ) (hm : m.natAbs ≤ l) :
    (starRingEnd ℂ) (sphHarm m l (phiOf s.toPt) (thetaOf s.toPt)) =
      (starRingEnd ℂ) (sphHarm m l s.phi s.theta) := by
  have h1 := sphHarm_row s.toPt (spherical_ne_zero s hs) l m hm
  rw [solidS_spherical s hs l m hm, rOf_eq, spherical_norm s hs] at h1
  have hr : ((s.r : ℂ)) ^ l ≠ 0 := pow_ne_zero _ (by exact_mod_cast hs.1.ne')
  exact mul_left_cancel₀ hr h1

theorem sumConj_zip_gen (w : ℝ → ℝ) (l : ℕ) (m : ℤ) (hm : m.natAbs ≤ l) : ∀ (S : List SphPt),
    (∀ s ∈ S, s.Ok) →
    (List.zipWith (· * ·) ((S.map SphPt.toPt).map fun p => ((p.mass * w (rOf p) : ℝ) : ℂ))
      (((S.map SphPt.toPt).map fun p => (phiOf p, thetaOf p)).map fun a =>
        (starRingEnd ℂ) (sphHarm m l a.1 a.2))).sum = yukawaInner w S l m
  | [], _ => rfl
  | s :: S, h => by
    have hs := h s List.mem_cons_self
    have ih := sumConj_zip_gen w l m hm S (fun q hq => h q (List.mem_cons_of_mem _ hq))
    simp only [yukawaInner, List.map_cons, List.zipWith_cons_cons, List.sum_cons] at ih ⊢
    rw [ih, sphHarm_row_spherical s hs l m hm, rOf_eq, spherical_norm s hs]
    rfl

theorem sumConjHarm_gen (w : ℝ → ℝ) (l : ℕ) (m : ℤ) (hm : m.natAbs ≤ l) : ∀ (S : List SphPt),
    (∀ s ∈ S, s.Ok) →
    sumConjHarm w m l (S.map SphPt.toPt) ((S.map SphPt.toPt).map fun p => (phiOf p, thetaOf p)) =
      yukawaInner w S l m
  | [], _ => rfl
  | s :: S, h => by
    have hs := h s List.mem_cons_self
    have ih := sumConjHarm_gen w l m hm S (fun q hq => h q (List.mem_cons_of_mem _ hq))
    simp only [sumConjHarm, yukawaInner, List.map_cons, List.zipWith_cons_cons,
      List.sum_cons] at ih ⊢
    rw [ih, sphHarm_row_spherical s hs l m hm, rOf_eq, spherical_norm s hs]
    congr 1
    rw [mul_comm]
    rfl

theorem sphHarm_zero (a b : ℝ) : sphHarm 0 0 a b = ((1 / Real.sqrt (4 * Real.pi) : ℝ) : ℂ) := by
  simp [sphHarm, lpmv, legendreP]

/-- C17: `imoment` uses the Bessel function of its own degree. -/
theorem C17_imoment (iN : ℕ → ℝ → ℝ) (l : ℕ) (m : ℤ) (hm : m.natAbs ≤ l) (lmbd : ℝ)
    (S : List SphPt) (hS : ∀ s ∈ S, s.Ok) :
    imoment iN l m lmbd (S.map SphPt.toPt) =
      some (yukawaInner (fun r => iN l (r / lmbd)) S l m) := by
  by_cases hl : l = 0
  · subst hl
    have hm0 : m = 0 := by omega
    subst hm0
    simp only [imoment, if_true, yukawaInner, List.map_map, Option.some.injEq]
    congr 1
    apply List.map_congr_left
    intro s hs
    simp only [Function.comp, sphHarm_zero, rOf_eq, spherical_norm s (hS s hs)]
    simp only [Complex.conj_ofReal, SphPt.toPt]
    push_cast; ring
  · have h1 : anglesOf (S.map SphPt.toPt) =
        (S.map SphPt.toPt).map fun p => (phiOf p, thetaOf p) := by
      rw [anglesOf, offOrigin_self (offOrigin_rows S hS)]
    have h2 := sumConj_zip_gen (fun r => iN l (r / lmbd)) l m hm S hS
    simp only [imoment, if_neg hl, h1, List.length_map, if_true]
    rw [← h2]

/-- C17: `imoments` uses the Bessel function of the maximum degree `L` for every degree
`1 <= l <= L`, and `i_0` for the monopole. -/
theorem C17_imoments (iN : ℕ → ℝ → ℝ) (L : ℕ) (lmbd : ℝ) (S : List SphPt) (hS : ∀ s ∈ S, s.Ok) :
    ∃ q, imoments iN L lmbd (S.map SphPt.toPt) = some q ∧
      q.get 0 0 = yukawaInner (fun r => iN 0 (r / lmbd)) S 0 0 ∧
      ∀ (l : ℕ) (m : ℤ), 1 ≤ l → l ≤ L → m.natAbs ≤ l →
        q.get l m = yukawaInner (fun r => iN L (r / lmbd)) S l m := by
  set A := S.map SphPt.toPt with hA
  have hoff : OffOrigin A := offOrigin_rows S hS
  have h1 : anglesOf A = A.map fun p => (phiOf p, thetaOf p) := by
    rw [anglesOf, offOrigin_self hoff]
  have h0 : (A.map fun p => ((p.mass * iN 0 (rOf p / lmbd) / Real.sqrt (4 * Real.pi) : ℝ) : ℂ)).sum
      = yukawaInner (fun r => iN 0 (r / lmbd)) S 0 0 := by
    rw [hA, yukawaInner, List.map_map]
    congr 1
    apply List.map_congr_left
    intro s hs
    simp only [Function.comp, sphHarm_zero, rOf_eq, spherical_norm s (hS s hs)]
    simp only [Complex.conj_ofReal, SphPt.toPt]
    push_cast; ring
  have key : ∀ ang : List (ℝ × ℝ), (L ≠ 0 → ang = A.map fun p => (phiOf p, thetaOf p)) →
      ∀ q : Mom L, q = (Mom.ofFn L fun n m =>
        if n = 0 then (if m = 0 then (A.map fun p =>
          ((p.mass * iN 0 (rOf p / lmbd) / Real.sqrt (4 * Real.pi) : ℝ) : ℂ)).sum else 0)
        else if 0 ≤ m ∧ m ≤ n then
          sumConjHarm (fun r => iN L (r / lmbd)) m n (offOrigin A) ang else 0).fillNeg →
      q.get 0 0 = yukawaInner (fun r => iN 0 (r / lmbd)) S 0 0 ∧
      ∀ (l : ℕ) (m : ℤ), 1 ≤ l → l ≤ L → m.natAbs ≤ l →
        q.get l m = yukawaInner (fun r => iN L (r / lmbd)) S l m := by
    rintro ang hang q rfl
    constructor
    · rw [← h0]
      apply get_fillNeg_sym _ (fun _ m => if m = 0 then (A.map fun p =>
        ((p.mass * iN 0 (rOf p / lmbd) / Real.sqrt (4 * Real.pi) : ℝ) : ℂ)).sum else 0) 0
        (by omega) _ _ 0 (by simp)
      · intro m _
        by_cases hm : m = 0
        · subst hm; simp
        · simp [hm]
      · intro m _
        by_cases hm : m = 0
        · subst hm
          simp only [neg_zero, if_true, Int.natAbs_zero, pow_zero, one_mul]
          rw [map_list_sum, List.map_map (f := fun p : Pt => _)]
          congr 1
          apply List.map_congr_left
          intro p _
          simp only [Function.comp, Complex.conj_ofReal]
        · simp [hm]
    · intro l m hl1 hl hm
      have hres := get_fillNeg_sym (L := L) (fun n m =>
        if n = 0 then (if m = 0 then (A.map fun p =>
          ((p.mass * iN 0 (rOf p / lmbd) / Real.sqrt (4 * Real.pi) : ℝ) : ℂ)).sum else 0)
        else if 0 ≤ m ∧ m ≤ n then
          sumConjHarm (fun r => iN L (r / lmbd)) m n (offOrigin A) ang else 0)
        (fun l m => if m.natAbs ≤ l then yukawaInner (fun r => iN L (r / lmbd)) S l m else 0) l hl
        ?_ ?_ m (by omega)
      · rw [hres, if_pos hm]
      · intro k _
        rw [if_neg (by omega), offOrigin_self hoff, hang (by omega)]
        by_cases hk : 0 ≤ k
        · by_cases hk2 : k ≤ l
          · rw [if_pos ⟨hk, hk2⟩, if_pos hk, if_pos (by omega),
              ← sumConjHarm_gen _ l k (by omega) S hS]
          · rw [if_neg (fun h => hk2 h.2), if_pos hk, if_neg (by omega)]
        · rw [if_neg (fun h => hk h.1), if_neg hk]
      · intro k _
        simp only [Int.natAbs_neg]
        by_cases hk : k.natAbs ≤ l
        · rw [if_pos hk, if_pos hk, yukawaInner_neg]
        · rw [if_neg hk, if_neg hk]; simp
  by_cases hL : L = 0
  · refine ⟨_, by simp only [imoments, if_pos hL]; rfl, ?_⟩
    exact key [] (fun h => absurd hL h) _ rfl
  · have h2 : takeIds (anglesOf A) (ridsOf A) = some (A.map fun p => (phiOf p, thetaOf p)) := by
      have := takeIds_originLast A [] hoff (by simp)
      rwa [List.append_nil] at this
    refine ⟨_, by simp only [imoments, if_neg hL, h2, Option.map_some]; rfl, ?_⟩
    exact key _ (fun _ => rfl) _ rfl

/-- C17: agreement of the two routines at degrees `0` and `L`. -/
theorem C17_agree_ends (iN : ℕ → ℝ → ℝ) (L : ℕ) (lmbd : ℝ) (S : List SphPt)
    (hS : ∀ s ∈ S, s.Ok) :
    ∃ q, imoments iN L lmbd (S.map SphPt.toPt) = some q ∧
      imoment iN 0 0 lmbd (S.map SphPt.toPt) = some (q.get 0 0) ∧
      ∀ m : ℤ, m.natAbs ≤ L → imoment iN L m lmbd (S.map SphPt.toPt) = some (q.get L m) := by
  obtain ⟨q, h1, h2, h3⟩ := C17_imoments iN L lmbd S hS
  refine ⟨q, h1, ?_, ?_⟩
  · rw [C17_imoment iN 0 0 (by simp) lmbd S hS, h2]
  · intro m hm
    rw [C17_imoment iN L m hm lmbd S hS]
    by_cases hL : L = 0
    · subst hL
      have : m = 0 := by omega
      subst this
      rw [h2]
    · rw [h3 L m (by omega) le_rfl hm]

/-- C17: for one point on the z axis the two routines disagree at every intermediate degree where
the Bessel functions of orders `l` and `L` differ. -/
theorem C17_disagree (iN : ℕ → ℝ → ℝ) (L l : ℕ) (hl : 1 ≤ l) (hlL : l ≤ L) (r lmbd : ℝ) (hr : 0 < r)
    (hne : iN l (r / lmbd) ≠ iN L (r / lmbd)) :
    ∃ q, imoments iN L lmbd [⟨1, ![0, 0, r]⟩] = some q ∧
      imoment iN l 0 lmbd [⟨1, ![0, 0, r]⟩] ≠ some (q.get l 0) := by
  set s : SphPt := ⟨1, r, 0, 0⟩ with hs
  have hok : ∀ t ∈ [s], t.Ok := by
    intro t ht
    rw [List.mem_singleton] at ht
    subst ht
    exact ⟨hr, le_rfl, Real.pi_pos.le⟩
  have hpt : ([⟨1, ![0, 0, r]⟩] : PtArray) = [s].map SphPt.toPt := by
    simp [hs, SphPt.toPt, spherical]
  rw [hpt]
  obtain ⟨q, h1, -, h3⟩ := C17_imoments iN L lmbd [s] hok
  refine ⟨q, h1, ?_⟩
  rw [C17_imoment iN l 0 (by simp) lmbd [s] hok, h3 l 0 hl hlL (by simp)]
  intro h
  have h := Option.some.inj h
  simp only [yukawaInner, List.map_cons, List.map_nil, List.sum_cons, List.sum_nil, add_zero,
    hs, one_mul] at h
  have hY : (starRingEnd ℂ) (sphHarm 0 l 0 0) ≠ 0 := by
    have h4 := sphHarm_solid 1 0 0 (by simp) l 0 (by simp)
    have h5 : sphericalV 1 0 0 = ![0, 0, 1] := by simp [sphericalV]
    have h6 : Rsol l 0 ![0, 0, 1] = 1 / l.factorial := by
      have : uPoly ![0, 0, 1] = Polynomial.X := by simp [uPoly]
      rw [Rsol, this, add_zero, zc_nat]; simp
    rw [h5, h6] at h4
    intro h7
    rw [h7, mul_zero] at h4
    have h8 : (Nlm l 0 : ℂ) ≠ 0 := by
      rw [Nlm]
      norm_cast
      apply (Real.sqrt_pos.2 _).ne'
      have := Real.pi_pos
      positivity
    have h9 : ((l.factorial : ℕ) : ℂ) ≠ 0 := by exact_mod_cast l.factorial_ne_zero
    exact mul_ne_zero h8 (one_div_ne_zero h9) h4.symm
  have := mul_right_cancel₀ hY h
  exact hne (by exact_mod_cast this)

/-- C17, an actual disagreement with the true Bessel functions: one unit mass at (0,0,1), length
scale 1, requested degree 2, entry (1,0). -/
theorem C17_disagree_witness :
    ∃ q, imoments sphericalIn 2 1 [⟨1, ![0, 0, 1]⟩] = some q ∧
      imoment sphericalIn 1 0 1 [⟨1, ![0, 0, 1]⟩] ≠ some (q.get 1 0) := by
  apply C17_disagree sphericalIn 2 1 le_rfl (by norm_num) 1 1 one_pos
  simp only [sphericalIn, sphericalInPair, div_one, one_ne_zero, if_false]
  rw [Real.cosh_eq, Real.sinh_eq]
  have h1 : Real.exp 1 * Real.exp (-1) = 1 := by rw [← Real.exp_add]; simp
  have h2 := Real.exp_pos (-1)
  have h3 : (2.7182818283 : ℝ) < Real.exp 1 := Real.exp_one_gt_d9
  have h4 : Real.exp 1 < 2.7182818286 := Real.exp_one_lt_d9
  intro h
  norm_num at h
  nlinarith

example : ∀ s ∈ exS, s.Ok := by
  intro s hs
  simp only [exS, List.mem_cons, List.not_mem_nil, or_false] at hs
  rcases hs with rfl | rfl <;> refine ⟨?_, ?_, ?_⟩ <;> norm_num <;> linarith [Real.pi_gt_three]

end Newt
