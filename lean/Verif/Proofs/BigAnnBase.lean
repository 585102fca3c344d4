import Verif.Proofs.QlmNum
import Mathlib.MeasureTheory.Integral.DominatedConvergence
import Mathlib.Analysis.SpecialFunctions.Log.Deriv
import Mathlib.Analysis.Calculus.Deriv.Inv

/-! # Double integrals over `(r, z)` by two successive antiderivatives -/

namespace Newt

open QlmNum MeasureTheory Finset

/-- The distance `sqrt(r^2+z^2)`. -/
noncomputable def dd (r z : ℝ) : ℝ := Real.sqrt (r ^ 2 + z ^ 2)

theorem dd_pos (r z : ℝ) (hr : 0 < r) : 0 < dd r z := Real.sqrt_pos.2 (by positivity)

theorem dd_sq (r z : ℝ) : dd r z ^ 2 = r ^ 2 + z ^ 2 := Real.sq_sqrt (by positivity)

theorem dd_zero (r : ℝ) (hr : 0 < r) : dd r 0 = r := by
  rw [dd]; simp [Real.sqrt_sq hr.le]

/-- Horner evaluation of a polynomial given by its coefficients, and its derivative. -/
def evalL : List ℝ → ℝ → ℝ
  | [], _ => 0
  | c :: cs, x => c + x * evalL cs x

def derivL : List ℝ → ℝ → ℝ
  | [], _ => 0
  | _ :: cs, x => evalL cs x + x * derivL cs x

theorem evalL_hasDerivAt (cs : List ℝ) (x : ℝ) : HasDerivAt (evalL cs) (derivL cs x) x := by
  induction cs with
  | nil => exact hasDerivAt_const x 0
  | cons c cs ih =>
    have h := ((hasDerivAt_id x).mul ih).const_add c
    refine (h.congr_deriv ?_).congr_of_eventuallyEq (Filter.Eventually.of_forall fun y => rfl)
    simp [derivL]

theorem dd_hasDerivAt_z (r z : ℝ) (hr : 0 < r) : HasDerivAt (fun z => dd r z) (z / dd r z) z := by
  have h1 : HasDerivAt (fun z : ℝ => r ^ 2 + z ^ 2) (2 * z) z := by
    have := ((hasDerivAt_id z).pow 2).const_add (r ^ 2)
    simpa using this
  have h2 := h1.sqrt (by positivity)
  refine h2.congr_deriv ?_
  rw [dd]
  field_simp

theorem dd_hasDerivAt_r (r H : ℝ) (hr : 0 < r) : HasDerivAt (fun r => dd r H) (r / dd r H) r := by
  have h1 : HasDerivAt (fun r : ℝ => r ^ 2 + H ^ 2) (2 * r) r := by
    have := ((hasDerivAt_id r).pow 2).add_const (H ^ 2)
    simpa using this
  have h2 := h1.sqrt (by positivity)
  refine h2.congr_deriv ?_
  rw [dd]
  field_simp

theorem pow_deriv_aux (n : ℕ) (d v : ℝ) (hd : d ≠ 0) :
    (n : ℝ) * d ^ (n - 1) * (v / d) = n * v * d ^ n / d ^ 2 := by
  rcases n with _ | n
  · simp
  · rw [Nat.add_sub_cancel]
    field_simp
    ring

theorem dz_frac (cs : List ℝ) (n : ℕ) (r z : ℝ) (hr : 0 < r) :
    HasDerivAt (fun z => evalL cs z / dd r z ^ n)
      ((derivL cs z * (r ^ 2 + z ^ 2) - n * evalL cs z * z) / dd r z ^ (n + 2)) z := by
  have hd := (dd_pos r z hr).ne'
  have h := (evalL_hasDerivAt cs z).div ((dd_hasDerivAt_z r z hr).pow n) (pow_ne_zero n hd)
  refine h.congr_deriv ?_
  rw [pow_deriv_aux n _ _ hd, ← dd_sq r z]
  simp only [Pi.pow_apply]
  field_simp
  ring

theorem dr_frac (cs : List ℝ) (a n : ℕ) (r H : ℝ) (hr : 0 < r) :
    HasDerivAt (fun r => evalL cs r / (r ^ a * dd r H ^ n))
      ((derivL cs r * r * (r ^ 2 + H ^ 2) - a * evalL cs r * (r ^ 2 + H ^ 2) - n * evalL cs r * r ^ 2)
        / (r ^ (a + 1) * dd r H ^ (n + 2))) r := by
  have hd := (dd_pos r H hr).ne'
  have hr' := hr.ne'
  have ha : HasDerivAt (fun r : ℝ => r ^ a) (a * r ^ (a - 1)) r := hasDerivAt_pow a r
  have h := (evalL_hasDerivAt cs r).div (ha.mul ((dd_hasDerivAt_r r H hr).pow n))
    (mul_ne_zero (pow_ne_zero a hr') (pow_ne_zero n hd))
  refine h.congr_deriv ?_
  simp only [Pi.mul_apply, Pi.pow_apply]
  rw [pow_deriv_aux n _ _ hd, ← dd_sq r H]
  have e : (a : ℝ) * r ^ (a - 1) = a * r ^ a / r := by
    rcases a with _ | a
    · simp
    · rw [Nat.add_sub_cancel]; field_simp; ring
  rw [e]
  field_simp
  ring

theorem dr_frac0 (cs : List ℝ) (a : ℕ) (r : ℝ) (hr : 0 < r) :
    HasDerivAt (fun r => evalL cs r / r ^ a)
      ((derivL cs r * r - a * evalL cs r) / r ^ (a + 1)) r := by
  have hr' := hr.ne'
  have ha : HasDerivAt (fun r : ℝ => r ^ a) (a * r ^ (a - 1)) r := hasDerivAt_pow a r
  have h := (evalL_hasDerivAt cs r).div ha (pow_ne_zero a hr')
  refine h.congr_deriv ?_
  have e : (a : ℝ) * r ^ (a - 1) = a * r ^ a / r := by
    rcases a with _ | a
    · simp
    · rw [Nat.add_sub_cancel]; field_simp; ring
  rw [e]
  field_simp
  ring

/-- The meridional integral of `r * shi / d^(2l+1)` over `r0 <= r <= r1`, `0 <= z <= H`. -/
noncomputable def annInt (l m : ℕ) (H r0 r1 : ℝ) : ℝ :=
  ∫ r in r0..r1, ∫ z in (0 : ℝ)..H, r * cylShi l m z r / dd r z ^ (2 * l + 1)

theorem cylShi_fact (l m : ℕ) (_hm : m ≤ l) (z r : ℝ) :
    cylShi l m z r = ∑ k ∈ range ((l - m) / 2 + 1),
      (-1) ^ k * r ^ (m + 2 * k) * z ^ (l - (m + 2 * k))
        / (2 ^ (m + 2 * k) * (((m + k).factorial : ℝ) * k.factorial * (l - m - 2 * k).factorial)) := by
  rw [cylShi]
  refine sum_congr rfl fun k hk => ?_
  rw [gamk_eq l m k (by have := mem_range.1 hk; omega)]

theorem cylShi_continuous (l m : ℕ) : Continuous fun p : ℝ × ℝ => cylShi l m p.2 p.1 := by
  unfold cylShi
  fun_prop

theorem dd_continuous : Continuous fun p : ℝ × ℝ => dd p.1 p.2 := by
  unfold dd
  fun_prop

theorem annInt_eq (l m : ℕ) (kap H r0 r1 : ℝ) (h0 : 0 < r0) (h1 : r0 ≤ r1)
    (F : ℝ → ℝ) (G : ℝ → ℝ → ℝ)
    (hF : ∀ r, 0 < r → HasDerivAt F (G r H) r)
    (hG : ∀ r z, 0 < r → HasDerivAt (G r) (kap * (r * cylShi l m z r / dd r z ^ (2 * l + 1))) z)
    (hG0 : ∀ r, 0 < r → G r 0 = 0) :
    kap * annInt l m H r0 r1 = F r1 - F r0 := by
  set I : ℝ → ℝ → ℝ := fun r z => kap * ((max r r0) * cylShi l m z (max r r0) / dd (max r r0) z ^ (2 * l + 1)) with hI
  have hmax : ∀ r, 0 < max r r0 := fun r => lt_max_of_lt_right h0
  have hIc : Continuous (Function.uncurry I) := by
    rw [hI]
    refine continuous_const.mul (Continuous.div ?_ ?_ ?_)
    · have h2 : Continuous fun p : ℝ × ℝ => ((max p.1 r0, p.2) : ℝ × ℝ) := by fun_prop
      exact (by fun_prop : Continuous fun p : ℝ × ℝ => max p.1 r0).mul ((cylShi_continuous l m).comp h2)
    · have h2 : Continuous fun p : ℝ × ℝ => ((max p.1 r0, p.2) : ℝ × ℝ) := by fun_prop
      exact (dd_continuous.comp h2).pow _
    · intro p
      exact pow_ne_zero _ (dd_pos _ _ (hmax p.1)).ne'
  have hin : ∀ r, r0 ≤ r → ∫ z in (0 : ℝ)..H, I r z = G r H := by
    intro r hr
    have hr' : 0 < r := lt_of_lt_of_le h0 hr
    have := intervalIntegral.integral_eq_sub_of_hasDerivAt (a := 0) (b := H) (f := G r) (f' := I r)
      (fun z _ => by
        have := hG r z hr'
        simp only [hI, max_eq_left hr]; exact this)
      ((hIc.comp (by fun_prop : Continuous fun z : ℝ => (r, z))).intervalIntegrable 0 H)
    rw [this, hG0 r hr', sub_zero]
  have hpar : Continuous fun r => ∫ z in (0 : ℝ)..H, I r z :=
    intervalIntegral.continuous_parametric_intervalIntegral_of_continuous' hIc 0 H
  have hout : ∫ r in r0..r1, ∫ z in (0 : ℝ)..H, I r z = F r1 - F r0 := by
    refine intervalIntegral.integral_eq_sub_of_hasDerivAt (fun r hr => ?_) (hpar.intervalIntegrable _ _)
    rw [Set.uIcc_of_le h1] at hr
    rw [hin r hr.1]
    exact hF r (lt_of_lt_of_le h0 hr.1)
  rw [← hout, annInt, ← intervalIntegral.integral_const_mul]
  refine intervalIntegral.integral_congr fun r hr => ?_
  rw [Set.uIcc_of_le h1] at hr
  beta_reduce
  rw [← intervalIntegral.integral_const_mul]
  simp only [hI, max_eq_left hr.1]

/-- Closing tactics for the generated antiderivative checks. -/
macro "ann_dr " h:ident r:ident H:ident hr:ident hH:ident : tactic => `(tactic| (
  refine (HasDerivAt.congr_deriv $h ?_).congr_of_eventuallyEq ?_
  · have hd := ne_of_gt (dd_pos $r $H $hr)
    have hr' := ne_of_gt $hr
    have hH' := ne_of_gt $hH
    simp only [evalL, derivL]
    push_cast
    field_simp
    try ring
  · filter_upwards [lt_mem_nhds $hr] with x hx
    have hd := ne_of_gt (dd_pos x $H hx)
    have hx' := ne_of_gt hx
    have hH' := ne_of_gt $hH
    simp only [evalL, Pi.add_apply]
    field_simp
    try ring))

macro "ann_dz " h:ident r:ident z:ident hr:ident : tactic => `(tactic| (
  refine HasDerivAt.congr_deriv $h ?_
  have hd := ne_of_gt (dd_pos $r $z $hr)
  have hr' := ne_of_gt $hr
  rw [cylShi_fact _ _ (by norm_num)]
  norm_num [Finset.sum_range_succ, Nat.factorial, evalL, derivL]
  field_simp
  try ring))

macro "ann_zero " r:ident hr:ident : tactic => `(tactic| (
  have hr' := ne_of_gt $hr
  simp only [dd_zero $r $hr, evalL]
  field_simp
  try ring))

end Newt
