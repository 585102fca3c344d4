import Verif.Props.TwoCentre
import Verif.Props.Truncation

/-!
# C98: how fast the force and torque from two sets of inner moments converge
-/

namespace Newt

open Spec MeasureTheory Asymptotics Filter

/-- A polynomial times a power grows more slowly than a power of a larger number. -/
theorem poly_pow_O (P : Polynomial ℝ) {x y : ℝ} (hx : 0 ≤ x) (hxy : x < y) :
    (fun L : ℕ => P.eval (L : ℝ) * x ^ L) =O[atTop] fun L : ℕ => y ^ L := by
  induction P using Polynomial.induction_on' with
  | add p q hp hq =>
    refine (hp.add hq).congr_left fun L => ?_
    rw [Polynomial.eval_add]; ring
  | monomial n a =>
    have h := (isLittleO_pow_const_mul_const_pow_const_pow_of_norm_lt (R := ℝ) n (r₁ := x) (r₂ := y)
      (by rwa [Real.norm_eq_abs, abs_of_nonneg hx])).isBigO.const_mul_left a
    refine h.congr_left fun L => ?_
    rw [Polynomial.eval_monomial]; ring

open Polynomial in
theorem ptErr_O (c : Body) (a r D y : ℝ) (ha : 0 ≤ a) (hr : 0 ≤ r) (h : a + r < D) (hy : (a + r) / D < y) :
    (fun L => ptErr L c a r D) =O[atTop] fun L : ℕ => y ^ L := by
  have hD : 0 < D := by linarith
  have hx : 0 ≤ (a + r) / D := by positivity
  have hle : a / (D - r) ≤ (a + r) / D := by
    rw [div_le_div_iff₀ (by linarith) hD]; nlinarith
  have h1 := (poly_pow_O ((X + 1) * (2 * X + 3) ^ 2 * (2 * X + 3)) hx hy).const_mul_left
    ((a + r) / (D - (a + r)) ^ 2)
  have h2 := (poly_pow_O ((X + 1) ^ 2 * ((2 * X + 1) ^ 4 * (4 * (4 * X + 1)))) hx hy).const_mul_left
    ((a + r) / D / D)
  have h3 := (poly_pow_O 1 (x := a / (D - r)) (div_nonneg ha (by linarith)) (hle.trans_lt hy)).const_mul_left
    (a / (D - r) / (D - r - a))
  have h4 := (((h1.add h2).const_mul_left (4 * Real.pi)).add h3).const_mul_left (|BIG_G| * c.absMass)
  refine h4.congr_left fun L => ?_
  rw [ptErr, bipErr, remFac]
  simp only [eval_mul, eval_add, eval_pow, eval_X, eval_one, eval_ofNat, Nat.cast_zero, pow_succ]
  ring

theorem missed_O (a R y : ℝ) (ha : 0 ≤ a) (haR : a < R) (hy : a / R < y) : (fun L => missed a R L) =O[atTop] fun L : ℕ => y ^ L := by
  have h1 := (poly_pow_O (Polynomial.X + 1 - Polynomial.C (a / R) * Polynomial.X) (div_nonneg ha (by linarith)) hy).const_mul_left
    (1 / (R - a) ^ 2)
  refine h1.congr_left fun L => ?_
  rw [missed]
  simp only [Polynomial.eval_sub, Polynomial.eval_mul, Polynomial.eval_add, Polynomial.eval_X, Polynomial.eval_one,
    Polynomial.eval_C]
  ring

/-- Room for a slightly larger first radius. -/
theorem widen (a r D y : ℝ) (h : a + r < D) (hD : 0 < D) (hy : (a + r) / D < y) :
    ∃ s, 0 < s ∧ a + 3 * s + r < D ∧ (a + 3 * s + r) / D < y := by
  rw [div_lt_iff₀ hD] at hy
  refine ⟨min (D - (a + r)) (y * D - (a + r)) / 6, ?_, ?_, ?_⟩
  · have : 0 < min (D - (a + r)) (y * D - (a + r)) := lt_min (by linarith) (by linarith)
    linarith
  · have := min_le_left (D - (a + r)) (y * D - (a + r))
    have h0 : 0 < min (D - (a + r)) (y * D - (a + r)) := lt_min (by linarith) (by linarith)
    linarith
  · rw [div_lt_iff₀ hD]
    have := min_le_right (D - (a + r)) (y * D - (a + r))
    have h0 : 0 < min (D - (a + r)) (y * D - (a + r)) := lt_min (by linarith) (by linarith)
    linarith

/-- C98 (rate of convergence, force): the error of the multipole force computed from the inner moments of two bodies, of radii `a`
and `r`, falls at least as fast as `theta ^ L` for every `theta` above the ratio `(a + r) / |d|` of the sum of the radii to the
separation. -/
theorem C98_force_rate (b c : Body) (v d : V3) (a r : ℝ) (ha : 0 ≤ a) (hr : 0 ≤ r) (h : a + r < modulus d)
    (hb : (b.translate v).InBall a) (hc : c.InBall r) (theta : ℝ) (ht : (a + r) / modulus d < theta) :
    ∃ C, ∀ L, 1 ≤ L → ∃ Q F, translate_q2Q (Mom.ofFn L c.inner) d = some Q ∧
      multipole_force (Mom.ofFn L b.inner) Q (v 0) (v 1) (v 2) BIG_G = some F ∧
      ∀ i, ‖F i - ((b.translate v).force BIG_G (c.translate d) i : ℂ)‖ ≤ C * theta ^ L := by
  have hD : 0 < modulus d := by linarith
  have hd : d ≠ 0 := ne_zero_of_modulus hD
  have htp : 0 < theta := (div_nonneg (add_nonneg ha hr) hD.le).trans_lt ht
  obtain ⟨s, hs, hs3, hst⟩ := widen a r (modulus d) theta h hD ht
  have hle : a / (modulus d - r) ≤ (a + r) / modulus d := by
    rw [div_le_div_iff₀ (by linarith) hD]; nlinarith
  have hO := ((ptErr_O c (a + 3 * s) r (modulus d) theta (by positivity) hr hs3 hst).const_mul_left
    (14 / s * b.absMass)).add ((missed_O a (modulus d - r) theta ha (by linarith) (hle.trans_lt ht)).const_mul_left
    (BIG_G * b.absMass * c.absMass))
  obtain ⟨C, hC, hB⟩ := bound_of_isBigO_nat_atTop hO
  refine ⟨C, fun L hL => ?_⟩
  obtain ⟨F, F', h1, h2, h3⟩ := two_centre_force b c v d a r s ha hs hs3 hb hc L hL
  obtain ⟨F2, h4, h5⟩ := C115_force_error b (c.translate d) v a (modulus d - r) ha (by linarith) hb
    (translate_offBall c d r hc) L hL
  rw [h2, Option.some.injEq] at h4
  subst h4
  refine ⟨_, F, translate_q2Q_closed _ d hd, h1, fun i => ?_⟩
  have h6 := hB (x := L) (pow_pos htp L).ne'
  rw [Real.norm_eq_abs, Real.norm_eq_abs, abs_of_pos (pow_pos htp L)] at h6
  rw [absMass_translate] at h5
  calc _ = ‖(F i - F' i) + (F' i - ((b.translate v).force BIG_G (c.translate d) i : ℂ))‖ := by rw [sub_add_sub_cancel]
    _ ≤ _ := norm_add_le _ _
    _ ≤ 14 * ptErr L c (a + 3 * s) r (modulus d) / s * 1 * b.absMass +
        BIG_G * b.absMass * c.absMass * missed a (modulus d - r) L := add_le_add (h3 i) (h5 i)
    _ = 14 / s * b.absMass * ptErr L c (a + 3 * s) r (modulus d) +
        BIG_G * b.absMass * c.absMass * missed a (modulus d - r) L := by ring
    _ ≤ _ := (le_abs_self _).trans h6

/-- C98 (rate of convergence, torque). -/
theorem C98_torque_rate (b c : Body) (d : V3) (phi a r : ℝ) (ha : 0 ≤ a) (hr : 0 ≤ r) (h : a + r < modulus d)
    (hb : b.InBall a) (hc : c.InBall r) (theta : ℝ) (ht : (a + r) / modulus d < theta) :
    ∃ C, ∀ L, ∃ Q t, translate_q2Q (Mom.ofFn L c.inner) d = some Q ∧
      torques_at_angle (torque_lm (Mom.ofFn L b.inner) Q BIG_G).nc
        (torque_lm (Mom.ofFn L b.inner) Q BIG_G).ns phi false = some t ∧
      |t - (b.rotate phi 0 0).torque BIG_G (c.translate d) 2| ≤ C * theta ^ L := by
  have hD : 0 < modulus d := by linarith
  have hd : d ≠ 0 := ne_zero_of_modulus hD
  have htp : 0 < theta := (div_nonneg (add_nonneg ha hr) hD.le).trans_lt ht
  obtain ⟨s, hs, hs3, hst⟩ := widen a r (modulus d) theta h hD ht
  have hle : a / (modulus d - r) ≤ (a + r) / modulus d := by
    rw [div_le_div_iff₀ (by linarith) hD]; nlinarith
  have hO := ((ptErr_O c (a + 3 * s) r (modulus d) theta (by positivity) hr hs3 hst).const_mul_left
    (14 / s * a * b.absMass)).add ((missed_O a (modulus d - r) theta ha (by linarith) (hle.trans_lt ht)).const_mul_left
    (BIG_G * b.absMass * c.absMass * a))
  obtain ⟨C, hC, hB⟩ := bound_of_isBigO_nat_atTop hO
  refine ⟨C, fun L => ?_⟩
  obtain ⟨t, t', h1, h2, h3⟩ := two_centre_torque b c d phi a r s ha hs hs3 hb hc L
  obtain ⟨t2, h4, h5⟩ := C115_torque_error b (c.translate d) phi a (modulus d - r) ha (by linarith) hb
    (translate_offBall c d r hc) L
  rw [h2, Option.some.injEq] at h4
  subst h4
  refine ⟨_, t, translate_q2Q_closed _ d hd, h1, ?_⟩
  have h6 := hB (x := L) (pow_pos htp L).ne'
  rw [Real.norm_eq_abs, Real.norm_eq_abs, abs_of_pos (pow_pos htp L)] at h6
  rw [absMass_translate] at h5
  calc _ = |(t - t') + (t' - (b.rotate phi 0 0).torque BIG_G (c.translate d) 2)| := by rw [sub_add_sub_cancel]
    _ ≤ _ := abs_add_le _ _
    _ ≤ 14 * ptErr L c (a + 3 * s) r (modulus d) / s * a * b.absMass +
        BIG_G * b.absMass * c.absMass * (a * missed a (modulus d - r) L) := add_le_add h3 h5
    _ = 14 / s * a * b.absMass * ptErr L c (a + 3 * s) r (modulus d) +
        BIG_G * b.absMass * c.absMass * a * missed a (modulus d - r) L := by ring
    _ ≤ _ := (le_abs_self _).trans h6

/-- Two unit masses of radius at most 1 a distance 5 apart: the errors fall like `(1/2) ^ L`. -/
example : ∃ C, ∀ L, 1 ≤ L → ∃ Q F,
    translate_q2Q (Mom.ofFn L (Body.points [⟨1, ![0, 1, 0]⟩]).inner) ![5, 0, 0] = some Q ∧
    multipole_force (Mom.ofFn L (Body.points [⟨1, ![1, 0, 0]⟩, ⟨2, ![-1, 0, 0]⟩]).inner) Q 0 0 0 BIG_G = some F ∧
      ∀ i, ‖F i - (((Body.points [⟨1, ![1, 0, 0]⟩, ⟨2, ![-1, 0, 0]⟩]).translate 0).force BIG_G
        ((Body.points [⟨1, ![0, 1, 0]⟩]).translate ![5, 0, 0]) i : ℂ)‖ ≤ C * (1 / 2) ^ L := by
  have h5 : modulus ![5, 0, 0] = 5 := by
    rw [modulus, show ((![5, 0, 0] : V3) 0 ^ 2 + (![5, 0, 0] : V3) 1 ^ 2 + (![5, 0, 0] : V3) 2 ^ 2) = 5 ^ 2 by
      simp, Real.sqrt_sq (by norm_num)]
  refine C98_force_rate _ _ 0 ![5, 0, 0] 1 1 zero_le_one zero_le_one (by rw [h5]; norm_num) ?_ ?_ (1 / 2) (by rw [h5]; norm_num)
  · rw [translate_zero_body]
    refine (Body.points_inBall _ 1).2 fun p hp => ?_
    simp only [List.mem_cons, List.not_mem_nil, or_false] at hp
    rcases hp with rfl | rfl <;> simp [modulus]
  · refine (Body.points_inBall _ 1).2 fun p hp => ?_
    simp only [List.mem_singleton] at hp
    subst hp; simp [modulus]

end Newt
