import Verif.Proofs.Q2QBody

/-!
# C59, C60: the truncated translations converge

`translate_q2Q` turns the inner moments of a body near the origin into outer moments of the body
moved away by `d`; `translate_Qlmb` moves the outer moments of a body far away.  Both use moments up
to degree `L` only, so the result is not exact; these theorems say how far off each moment is and
that the error vanishes as `L` grows - exactly when the body is moved far enough
(`a < |d|`), respectively stays clear of the origin (`|d| < D`).
-/

namespace Newt

open Spec

/-- C59 (error bound): a body within radius `a` of the origin, moved by `d` with `|d| > a`. -/
theorem C59_error (L : ℕ) (b : Body) (d : V3) (a : ℝ) (ha : 0 ≤ a) (had : a < modulus d) (hb : b.InBall a) :
    ∃ Q, translate_q2Q (Mom.ofFn L b.inner) d = some Q ∧
      ∀ (l : ℕ) (m : ℤ), l ≤ L → m.natAbs ≤ l →
        ‖Q.get l m - (b.translate d).outer l m‖ ≤ (2 * l + 1) / Nlm l m * (b.absMass *
          ((L + 1) * (2 * L + 3) ^ 2 * (2 * l + 2 * L + 3) ^ (l + 1) *
            ((a / modulus d) ^ L * (a / (modulus d - a) ^ (l + 2))))) := by
  have hd : d ≠ 0 := by
    intro h
    rw [h, (modulus_eq_zero 0).2 rfl] at had
    linarith
  refine ⟨_, translate_q2Q_closed _ d hd, fun l m hl hm => ?_⟩
  rw [Mom.get_ofFn _ hl (by omega)]
  exact q2Q_error L b d a had hb l m hm

/-- C59: each outer moment obtained by `translate_q2Q` converges to the outer moment of the moved body. -/
theorem C59_converges (b : Body) (d : V3) (a : ℝ) (ha : 0 ≤ a) (had : a < modulus d) (hb : b.InBall a)
    (Q : ∀ L, Mom L) (hQ : ∀ L, translate_q2Q (Mom.ofFn L b.inner) d = some (Q L)) (l : ℕ) (m : ℤ) :
    Filter.Tendsto (fun L => (Q L).get l m) Filter.atTop (nhds ((b.translate d).outer l m)) := by
  have hd : d ≠ 0 := by
    intro h
    rw [h, (modulus_eq_zero 0).2 rfl] at had
    linarith
  have hQ' : ∀ L, Q L = Mom.ofFn L (trQ (Mom.ofFn L b.inner) d) := by
    intro L
    have := hQ L
    rw [translate_q2Q_closed _ d hd, Option.some.injEq] at this
    exact this.symm
  by_cases hm : m.natAbs ≤ l
  · rw [tendsto_iff_norm_sub_tendsto_zero]
    have h1 := ((remFac_tendsto l ha had).const_mul b.absMass).const_mul ((2 * l + 1) / Nlm l m)
    rw [mul_zero, mul_zero] at h1
    refine squeeze_zero' (Filter.Eventually.of_forall fun L => norm_nonneg _) ?_ h1
    filter_upwards [Filter.eventually_ge_atTop l] with L hL
    rw [hQ' L, Mom.get_ofFn _ hL (by omega)]
    exact q2Q_error L b d a had hb l m hm
  · rw [outer_out _ _ _ (by omega)]
    refine tendsto_const_nhds.congr' ?_
    filter_upwards [Filter.eventually_ge_atTop (l + m.natAbs)] with L hL
    rw [hQ' L, Mom.get_ofFn _ (by omega) (by omega), trQ, if_neg hm]

/-- C59 for point arrays, in terms of the API alone: inner moments of an array near the origin,
translated by `translate_q2Q`, converge to the outer moments of the translated array. -/
theorem C59_points (A : PtArray) (h0 : ¬ OffAfterOrigin A) (d : V3) (a : ℝ) (ha : 0 ≤ a) (had : a < modulus d)
    (hA : ∀ p ∈ A, modulus p.pos ≤ a) (q Q : ∀ L, Mom L) (hq : ∀ L, qmoments L A = some (q L))
    (hQ : ∀ L, translate_q2Q (q L) d = some (Q L)) (l : ℕ) (m : ℤ) (hm : m.natAbs ≤ l) :
    Filter.Tendsto (fun L => (Q L).get l m - (Qmomentsb L (translate_point_array A d)).get l m)
      Filter.atTop (nhds 0) := by
  have hq' : ∀ L, q L = Mom.ofFn L (Body.points A).inner := by
    intro L
    have := hq L
    rw [qmoments_closed L A (Or.inr ((originLast_iff A).2 h0)), Option.some.injEq] at this
    rw [← this]
    apply Mom.ext_get
    intro l m hl hm
    rw [Mom.get_ofFn _ hl hm, Mom.get_ofFn _ hl hm, Body.inner_points]
  have hoff : OffOrigin (translate_point_array A d) := by
    intro p hp h
    rw [translate_point_array, List.mem_map] at hp
    obtain ⟨s, hs, rfl⟩ := hp
    have h1 := hA s hs
    have h2 : s.pos = -d := eq_neg_of_add_eq_zero_left h
    rw [h2, modulus_neg] at h1
    linarith
  have h1 := C59_converges (Body.points A) d a ha had ((Body.points_inBall A a).2 hA) Q
    (fun L => by rw [← hq' L]; exact hQ L) l m
  rw [Body.translate_points] at h1
  have h2 := h1.sub_const (outerMoment (translate_point_array A d) l m)
  rw [sub_self] at h2
  refine h2.congr' ?_
  filter_upwards [Filter.eventually_ge_atTop l] with L hL
  rw [Qmomentsb_closed L _ hoff, Mom.get_ofFn _ hL (by omega)]

/-- C60 (error bound): a body with all its mass beyond radius `D`, moved by `d` with `|d| ≤ a < D`. -/
theorem C60_error (L : ℕ) (b : Body) (d : V3) (a D : ℝ) (hd : modulus d ≤ a) (had : a < D) (hb : b.OffBall D)
    (l : ℕ) (m : ℤ) (hl : l ≤ L) (hm : m.natAbs ≤ l) :
    ‖(translate_Qlmb (Mom.ofFn L b.outer) d).get l m - (b.translate d).outer l m‖ ≤
      (2 * l + 1) / Nlm l m * (b.absMass *
        (((L - l : ℕ) + 1) * (2 * (L - l : ℕ) + 3) ^ 2 * (2 * l + 2 * (L - l : ℕ) + 3) ^ (l + 1) *
            ((a / D) ^ (L - l) * (a / (D - a) ^ (l + 2))))) := by
  rw [translate_Qlmb_closed _ (Body.outer_valid L b), Mom.get_ofFn _ hl (by omega)]
  exact Q2Q_error L b d a D hd had hb l hl m hm

/-- C60: each outer moment moved by `translate_Qlmb` converges to the outer moment of the moved body. -/
theorem C60_converges (b : Body) (d : V3) (D : ℝ) (hd : modulus d < D) (hb : b.OffBall D) (l : ℕ) (m : ℤ) :
    Filter.Tendsto (fun L => (translate_Qlmb (Mom.ofFn L b.outer) d).get l m) Filter.atTop
      (nhds ((b.translate d).outer l m)) := by
  by_cases hm : m.natAbs ≤ l
  · rw [tendsto_iff_norm_sub_tendsto_zero]
    have h1 := ((((remFac_tendsto l (modulus_nonneg d) hd).comp (Filter.tendsto_sub_atTop_nat l)).const_mul
      b.absMass).const_mul ((2 * l + 1) / Nlm l m))
    rw [mul_zero, mul_zero] at h1
    refine squeeze_zero' (Filter.Eventually.of_forall fun L => norm_nonneg _) ?_ h1
    filter_upwards [Filter.eventually_ge_atTop l] with L hL
    rw [translate_Qlmb_closed _ (Body.outer_valid L b), Mom.get_ofFn _ hL (by omega)]
    exact Q2Q_error L b d _ D le_rfl hd hb l hL m hm
  · rw [outer_out _ _ _ (by omega)]
    refine tendsto_const_nhds.congr' ?_
    filter_upwards [Filter.eventually_ge_atTop (l + m.natAbs)] with L hL
    rw [translate_Qlmb_closed _ (Body.outer_valid L b), Mom.get_ofFn _ (by omega) (by omega), trOuter, if_neg hm]

/-- C60 for point arrays, in terms of the API alone. -/
theorem C60_points (A : PtArray) (d : V3) (D : ℝ) (hd : modulus d < D)
    (hA : ∀ p ∈ A, D ≤ modulus p.pos) (l : ℕ) (m : ℤ) (hm : m.natAbs ≤ l) :
    Filter.Tendsto (fun L => (translate_Qlmb (Qmomentsb L A) d).get l m -
      (Qmomentsb L (translate_point_array A d)).get l m) Filter.atTop (nhds 0) := by
  have hD : 0 < D := lt_of_le_of_lt (modulus_nonneg d) hd
  have hoffA : OffOrigin A := by
    intro p hp h
    have h1 := hA p hp
    rw [h, (modulus_eq_zero 0).2 rfl] at h1
    linarith
  have hoff : OffOrigin (translate_point_array A d) := by
    intro p hp h
    rw [translate_point_array, List.mem_map] at hp
    obtain ⟨s, hs, rfl⟩ := hp
    have h1 := hA s hs
    have h2 : s.pos = -d := eq_neg_of_add_eq_zero_left h
    rw [h2, modulus_neg] at h1
    linarith
  have hq' : ∀ L, Qmomentsb L A = Mom.ofFn L (Body.points A).outer := by
    intro L
    rw [Qmomentsb_closed L _ hoffA]
    apply Mom.ext_get
    intro l m hl hm
    rw [Mom.get_ofFn _ hl hm, Mom.get_ofFn _ hl hm, Body.outer_points]
  have h1 := C60_converges (Body.points A) d D hd ((Body.points_offBall A D).2 hA) l m
  rw [Body.translate_points] at h1
  have h2 := h1.sub_const (outerMoment (translate_point_array A d) l m)
  rw [sub_self] at h2
  refine h2.congr' ?_
  filter_upwards [Filter.eventually_ge_atTop l] with L hL
  rw [hq' L, Qmomentsb_closed L _ hoff, Mom.get_ofFn _ hL (by omega)]

/-! ## The hypotheses are met by non-trivial cases -/

/-- A dumbbell of radius 1 moved by 5 along x. -/
noncomputable def dumbbell : PtArray := [⟨1, ![1, 0, 0]⟩, ⟨2, ![0, -1, 0]⟩]

theorem modulus_axis (x y z : ℝ) : modulus ![x, y, z] = Real.sqrt (x ^ 2 + y ^ 2 + z ^ 2) := by
  simp [modulus]

example : ¬ OffAfterOrigin dumbbell ∧ (0 : ℝ) ≤ 1 ∧ 1 < modulus ![5, 0, 0] ∧ (∀ p ∈ dumbbell, modulus p.pos ≤ 1) ∧
    (∃ q Q : ∀ L, Mom L, (∀ L, qmoments L dumbbell = some (q L)) ∧
      ∀ L, translate_q2Q (q L) ![5, 0, 0] = some (Q L)) := by
  have h0 : ¬ OffAfterOrigin dumbbell := by
    rintro ⟨i, j, p, q, hij, hi, hj, hp, hq⟩
    have : p ∈ dumbbell := List.mem_of_getElem? hi
    simp only [dumbbell, List.mem_cons, List.not_mem_nil, or_false] at this
    rcases this with rfl | rfl
    · have := congrFun hp 0; simp at this
    · have := congrFun hp 1; simp at this
  refine ⟨h0, by norm_num, ?_, ?_, ?_⟩
  · rw [modulus_axis, show ((5 : ℝ) ^ 2 + 0 ^ 2 + 0 ^ 2) = 5 ^ 2 by norm_num, Real.sqrt_sq (by norm_num)]
    norm_num
  · intro p hp
    simp only [dumbbell, List.mem_cons, List.not_mem_nil, or_false] at hp
    rcases hp with rfl | rfl <;> simp [modulus_axis]
  · refine ⟨fun L => Mom.ofFn L (innerMoment dumbbell),
      fun L => Mom.ofFn L (trQ (Mom.ofFn L (innerMoment dumbbell)) ![5, 0, 0]), fun L => ?_, fun L => ?_⟩
    · exact qmoments_closed L _ (Or.inr ((originLast_iff _).2 h0))
    · refine translate_q2Q_closed _ _ ?_
      intro h; have := congrFun h 0; simp at this

/-- The same dumbbell out at radius 5, moved by 1. -/
example : modulus ![0, 0, 1] < (2 : ℝ) ∧ ∀ p ∈ ([⟨1, ![5, 0, 0]⟩, ⟨2, ![0, -5, 0]⟩] : PtArray), 2 ≤ modulus p.pos := by
  constructor
  · simp [modulus_axis]
  · intro p hp
    simp only [List.mem_cons, List.not_mem_nil, or_false] at hp
    rcases hp with rfl | rfl
    · rw [modulus_axis, show ((5 : ℝ) ^ 2 + 0 ^ 2 + 0 ^ 2) = 5 ^ 2 by norm_num, Real.sqrt_sq (by norm_num)]
      norm_num
    · rw [modulus_axis, show ((0 : ℝ) ^ 2 + (-5) ^ 2 + 0 ^ 2) = 5 ^ 2 by norm_num, Real.sqrt_sq (by norm_num)]
      norm_num

end Newt
