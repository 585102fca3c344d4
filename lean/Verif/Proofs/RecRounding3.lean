import Verif.Proofs.RecRounding2
import Verif.Proofs.WignerDeriv
import Verif.Proofs.WignerRot
import Verif.Proofs.Nearest
import Mathlib.Analysis.Calculus.MeanValue
import Mathlib.Analysis.Real.Pi.Bounds

/-!
# The reduction of the angle, and the change of the Wigner matrices with the angle
-/

namespace Newt

open Spec Flt

variable {a : Arith} {u : ℝ} {e : ℕ → ℝ}

theorem trunc_le (x : ℝ) : |(trunc x : ℝ)| ≤ |x| := by
  rw [trunc]
  split_ifs with h
  · rw [abs_of_nonneg h, abs_of_nonneg (by exact_mod_cast Int.floor_nonneg.2 h)]
    exact Int.floor_le x
  · push Not at h
    have h1 : (⌈x⌉ : ℝ) ≤ 0 := by exact_mod_cast Int.ceil_le.2 (by simpa using h.le)
    rw [abs_of_neg h, abs_of_nonpos h1]
    linarith [Int.le_ceil x]

/-- The remainder lies between `-w` and `w`. -/
theorem fmod_range {x w : ℝ} (hw : 0 < w) : -w < x - w * trunc (x / w) ∧ x - w * trunc (x / w) < w := by
  have e1 : x = w * (x / w) := by field_simp
  rw [trunc]
  split_ifs with h
  · have h1 := Int.floor_le (x / w)
    have h2 := Int.lt_floor_add_one (x / w)
    constructor <;> nlinarith
  · have h1 := Int.le_ceil (x / w)
    have h2 := Int.ceil_lt_add_one (x / w)
    constructor <;> nlinarith

theorem halfTurn_pos (hu : u ≤ 1 / 1000) {pi0 : ℝ} (hp : HalfTurn a u pi0) : 3 < pi0 := by
  have := Real.pi_gt_d2
  have := hp.close
  nlinarith

/-- The reduced angle. -/
theorem reduce_err (h0 : 0 ≤ u) (hu : u ≤ 1 / 1000) (ha : Accurate a u e) {pi0 beta b s : ℝ} (hp : HalfTurn a u pi0) (h : Reduce a pi0 beta b s) :
    0 ≤ b ∧ b ≤ Real.pi ∧ ∃ k : ℤ, (s = 1 ∧ |b - (beta - k * (2 * Real.pi))| ≤ turnErr u beta) ∨ (s = -1 ∧ |b + (beta - k * (2 * Real.pi))| ≤ turnErr u beta) := by
  obtain ⟨w, r, h1, h2, h3⟩ := h
  have hpi := Real.pi_pos
  have hpi2 := Real.pi_lt_d4
  have p3 := halfTurn_pos hu hp
  have hw : w = 2 * pi0 := le_antisymm (hp.full _ _ h1 le_rfl) (hp.full' _ _ h1 le_rfl)
  have hw0 : 0 < w := by linarith
  have hwle : w ≤ 2 * Real.pi := by linarith [hp.le]
  have hwc : 2 * Real.pi - w ≤ u * (2 * Real.pi) := by linarith [hp.close]
  obtain ⟨f1, f2⟩ := fmod_range (x := beta) hw0
  set k := trunc (beta / w) with hk
  set f := beta - w * k with hf
  have hkb : |(k : ℝ)| * w ≤ |beta| := by
    have := trunc_le (beta / w)
    rw [abs_div, abs_of_pos hw0, le_div_iff₀ hw0] at this
    exact this
  have hfe : |f - (beta - k * (2 * Real.pi))| ≤ 2 * u * |beta| := by
    have e1 : f - (beta - k * (2 * Real.pi)) = k * (2 * Real.pi - w) := by rw [hf]; ring
    rw [e1, abs_mul, abs_of_nonneg (by linarith : 0 ≤ 2 * Real.pi - w)]
    have e2 : 2 * Real.pi ≤ 2 * w := by nlinarith [hp.close]
    calc |(k : ℝ)| * (2 * Real.pi - w) ≤ |(k : ℝ)| * (u * (2 * w)) := by
          refine mul_le_mul_of_nonneg_left (hwc.trans (mul_le_mul_of_nonneg_left e2 h0)) (abs_nonneg _)
      _ = 2 * u * (|(k : ℝ)| * w) := by ring
      _ ≤ _ := mul_le_mul_of_nonneg_left hkb (by linarith)
  -- the remainder
  have hr : 0 ≤ r ∧ r ≤ w ∧ ∃ j : ℤ, |r - (beta - j * (2 * Real.pi))| ≤ 2 * u * |beta| + u * (4 * Real.pi) := by
    rw [PyMod, ← hk, ← hf] at h2
    split_ifs at h2 with hneg
    · have ho := ha.op _ _ h2
      rw [abs_of_pos (by linarith : 0 < f + w)] at ho
      refine ⟨?_, ?_, k - 1, ?_⟩
      · have := (abs_le.1 ho).1
        nlinarith
      · rw [hw] at h2 ⊢
        exact hp.full _ _ h2 (by linarith)
      · have e1 : r - (beta - ((k - 1 : ℤ) : ℝ) * (2 * Real.pi)) = (f - (beta - k * (2 * Real.pi))) + (r - (f + w)) + (w - 2 * Real.pi) := by push_cast; ring
        rw [e1]
        have h5 : |w - 2 * Real.pi| ≤ u * (2 * Real.pi) := by rw [abs_sub_comm, abs_of_nonneg (by linarith)]; exact hwc
        have h6 : u * (f + w) ≤ u * (2 * Real.pi) := mul_le_mul_of_nonneg_left (by linarith) h0
        have t1 := abs_add_le ((f - (beta - k * (2 * Real.pi))) + (r - (f + w))) (w - 2 * Real.pi)
        have t2 := abs_add_le (f - (beta - k * (2 * Real.pi))) (r - (f + w))
        linarith
    · push Not at hneg
      rw [h2]
      refine ⟨hneg, by linarith, k, hfe.trans ?_⟩
      have : 0 ≤ u * (4 * Real.pi) := by positivity
      linarith
  obtain ⟨r0, r1, j, hj⟩ := hr
  have hsum : 2 * u * |beta| + u * (4 * Real.pi) + u * (3 * Real.pi) ≤ turnErr u beta := by
    rw [turnErr]
    have := mul_le_mul_of_nonneg_left hpi2.le h0
    linarith
  have hp3 : 0 ≤ u * (3 * Real.pi) := by positivity
  split_ifs at h3 with hgt
  · obtain ⟨ho, rfl⟩ := h3
    have hoe := ha.op _ _ ho
    rw [abs_of_nonneg (by linarith : 0 ≤ w - r)] at hoe
    refine ⟨?_, (hp.half _ _ ho (by linarith)).trans hp.le, j + 1, Or.inr ⟨rfl, ?_⟩⟩
    · have := (abs_le.1 hoe).1
      nlinarith
    · have e1 : b + (beta - ((j + 1 : ℤ) : ℝ) * (2 * Real.pi)) = (b - (w - r)) - (r - (beta - j * (2 * Real.pi))) + (w - 2 * Real.pi) := by push_cast; ring
      rw [e1]
      have h5 : |w - 2 * Real.pi| ≤ u * (2 * Real.pi) := by rw [abs_sub_comm, abs_of_nonneg (by linarith)]; exact hwc
      have h6 : u * (w - r) ≤ u * Real.pi := mul_le_mul_of_nonneg_left (by linarith [hp.le]) h0
      have t1 := abs_add_le ((b - (w - r)) - (r - (beta - j * (2 * Real.pi)))) (w - 2 * Real.pi)
      have t2 := abs_sub (b - (w - r)) (r - (beta - j * (2 * Real.pi)))
      linarith
  · obtain ⟨rfl, rfl⟩ := h3
    push Not at hgt
    exact ⟨r0, hgt.trans hp.le, j, Or.inl ⟨rfl, by linarith⟩⟩

/-! ## The change of the matrices with the angle -/

theorem lad_le (l : ℕ) (i : ℤ) : lad l i ≤ l + 1 / 2 := by
  rw [lad]
  refine Real.sqrt_le_iff.2 ⟨by positivity, ?_⟩
  nlinarith [sq_nonneg ((i : ℝ) + 1 / 2)]

theorem smalld_abs_le {l : ℕ} {i j : ℤ} (hi : i.natAbs ≤ l) (hj : j.natAbs ≤ l) (t : ℝ) : |smalld l t i j| ≤ 1 := by
  have h := Ht_abs_le (Real.cos_sq_add_sin_sq (t / 2)) hi hj
  have e1 : ∀ m : ℤ, |epsm m| = 1 := fun m => by
    have h2 : |epsm m| * |epsm m| = 1 := by rw [← abs_mul, epsm_sq m, abs_one]
    nlinarith [abs_nonneg (epsm m)]
  rw [Ht, abs_mul, abs_mul, e1, e1, one_mul, one_mul] at h
  exact h

theorem lad_term {l : ℕ} {i j : ℤ} (hi : i.natAbs ≤ l) (hj : j.natAbs ≤ l) (t : ℝ) : |lad l i * smalld l t (i + 1) j| ≤ l + 1 / 2 := by
  have h0 : 0 ≤ lad l i := Real.sqrt_nonneg _
  by_cases h : i = l
  · have : lad l i = 0 := by rw [lad, h]; simp
    rw [this, zero_mul, abs_zero]; positivity
  · rw [abs_mul, abs_of_nonneg h0]
    have := smalld_abs_le (l := l) (i := i + 1) (by omega) hj t
    calc lad l i * |smalld l t (i + 1) j| ≤ (l + 1 / 2) * 1 := mul_le_mul (lad_le l i) this (abs_nonneg _) (by positivity)
      _ = _ := mul_one _

theorem lad_term' {l : ℕ} {i j : ℤ} (hi : i.natAbs ≤ l) (hj : j.natAbs ≤ l) (t : ℝ) : |lad l (i - 1) * smalld l t (i - 1) j| ≤ l + 1 / 2 := by
  have h0 : 0 ≤ lad l (i - 1) := Real.sqrt_nonneg _
  by_cases h : i = -(l : ℤ)
  · have : lad l (i - 1) = 0 := by
      rw [lad, h]; push_cast
      rw [show ((l : ℝ) + (-(l : ℝ) - 1) + 1) = 0 by ring, mul_zero, Real.sqrt_zero]
    rw [this, zero_mul, abs_zero]; positivity
  · rw [abs_mul, abs_of_nonneg h0]
    have := smalld_abs_le (l := l) (i := i - 1) (by omega) hj t
    calc lad l (i - 1) * |smalld l t (i - 1) j| ≤ (l + 1 / 2) * 1 := mul_le_mul (lad_le l _) this (abs_nonneg _) (by positivity)
      _ = _ := mul_one _

/-- An entry of degree `l` changes by at most `(l+1)` times the change of the angle. -/
theorem smalld_lip {l : ℕ} {i j : ℤ} (hi : i.natAbs ≤ l) (hj : j.natAbs ≤ l) (s t : ℝ) : |smalld l s i j - smalld l t i j| ≤ (l + 1) * |s - t| := by
  have := Convex.norm_image_sub_le_of_norm_hasDerivWithin_le (f := fun h => smalld l h i j) (C := l + 1)
    (fun x (_ : x ∈ Set.univ) => (smalld_hasDeriv l i j hi hj x).hasDerivWithinAt) (fun x _ => by
      rw [Real.norm_eq_abs, abs_div, abs_two]
      have t1 := abs_sub (lad l i * smalld l x (i + 1) j) (lad l (i - 1) * smalld l x (i - 1) j)
      have t2 := lad_term hi hj x
      have t3 := lad_term' hi hj x
      rw [div_le_iff₀ (by norm_num)]
      linarith) convex_univ (Set.mem_univ t) (Set.mem_univ s)
  simpa [Real.norm_eq_abs] using this

theorem smalld_turns {l : ℕ} {i j : ℤ} (hj : j.natAbs ≤ l) (t : ℝ) (k : ℤ) : smalld l (t - k * (2 * Real.pi)) i j = smalld l t i j :=
  (smalld_periodic l i j hj).sub_int_mul_eq k

/-- The matrix of the reduced angle with the factors of the reflection. -/
theorem reduced_gap (h0 : 0 ≤ u) (hu : u ≤ 1 / 1000) (ha : Accurate a u e) {pi0 beta b s : ℝ} (hp : HalfTurn a u pi0) (h : Reduce a pi0 beta b s) {l : ℕ} {i j : ℤ}
    (hi : i.natAbs ≤ l) (hj : j.natAbs ≤ l) : |s ^ i.natAbs * s ^ j.natAbs * smalld l b i j - smalld l beta i j| ≤ (l + 1) * turnErr u beta := by
  obtain ⟨-, -, k, (⟨rfl, hk⟩ | ⟨rfl, hk⟩)⟩ := reduce_err h0 hu ha hp h
  · rw [one_pow, one_pow, one_mul, one_mul, ← smalld_turns hj beta k]
    exact (smalld_lip hi hj _ _).trans (mul_le_mul_of_nonneg_left hk (by positivity))
  · rw [negone_natAbs, negone_natAbs, ← smalld_neg l i j hi hj, ← smalld_turns hj beta k]
    refine (smalld_lip hi hj _ _).trans (mul_le_mul_of_nonneg_left ?_ (by positivity))
    rw [← abs_neg, show -(-b - (beta - (k : ℝ) * (2 * Real.pi))) = b + (beta - k * (2 * Real.pi)) by ring]
    exact hk

/-- The sine of the reduced angle. -/
theorem reduced_sin (h0 : 0 ≤ u) (hu : u ≤ 1 / 1000) (ha : Accurate a u e) {pi0 beta b s : ℝ} (hp : HalfTurn a u pi0) (h : Reduce a pi0 beta b s) :
    abs (Real.sin b - |Real.sin beta|) ≤ turnErr u beta := by
  obtain ⟨hb, hb', k, hk⟩ := reduce_err h0 hu ha hp h
  have hs := Real.sin_nonneg_of_nonneg_of_le_pi hb hb'
  rcases hk with ⟨-, hk⟩ | ⟨-, hk⟩
  · rw [← Real.sin_sub_int_mul_two_pi beta k, ← abs_of_nonneg hs]
    refine (abs_abs_sub_abs_le _ _).trans ((Real.abs_sin_sub_sin_le _ _).trans hk)
  · rw [← Real.sin_sub_int_mul_two_pi beta k, ← abs_of_nonneg hs, ← abs_neg (Real.sin (beta - _)), ← Real.sin_neg]
    refine (abs_abs_sub_abs_le _ _).trans ((Real.abs_sin_sub_sin_le _ _).trans ?_)
    rwa [sub_neg_eq_add]

theorem turnErr_nonneg (h0 : 0 ≤ u) (beta : ℝ) : 0 ≤ turnErr u beta := by
  rw [turnErr]; positivity

theorem reduce_exists (hT : Total a) (pi0 beta : ℝ) : ∃ b s, Reduce a pi0 beta b s := by
  obtain ⟨w, hw⟩ := hT.op (2 * pi0)
  obtain ⟨r, hr⟩ : ∃ r, PyMod a beta w r := by
    by_cases h : beta - w * trunc (beta / w) < 0
    · obtain ⟨r, hr⟩ := hT.op (beta - w * trunc (beta / w) + w)
      exact ⟨r, by rw [PyMod, if_pos h]; exact hr⟩
    · exact ⟨_, by rw [PyMod, if_neg h]⟩
  by_cases h : pi0 < r
  · obtain ⟨b, hb⟩ := hT.op (w - r)
    exact ⟨b, -1, w, r, hw, hr, by rw [if_pos h]; exact ⟨hb, rfl⟩⟩
  · exact ⟨r, 1, w, r, hw, hr, by rw [if_neg h]; exact ⟨rfl, rfl⟩⟩

/-- Small angles are not reduced. -/
theorem reduce_small (hu : u ≤ 1 / 1000) {pi0 beta b s : ℝ} (hp : HalfTurn a u pi0) (h0 : 0 ≤ beta) (h1 : beta ≤ 1) (h : Reduce a pi0 beta b s) : b = beta ∧ s = 1 := by
  obtain ⟨w, r, h1', h2, h3⟩ := h
  have p3 := halfTurn_pos hu hp
  have hw : w = 2 * pi0 := le_antisymm (hp.full _ _ h1' le_rfl) (hp.full' _ _ h1' le_rfl)
  have ht : trunc (beta / w) = 0 := by
    rw [trunc, if_pos (div_nonneg h0 (by linarith)), Int.floor_eq_zero_iff]
    exact ⟨div_nonneg h0 (by linarith), by rw [div_lt_one (by linarith)]; linarith⟩
  rw [PyMod, ht, Int.cast_zero, mul_zero, sub_zero, if_neg (by linarith)] at h2
  rw [h2, if_neg (by linarith)] at h3
  exact h3

/-! ## Double precision -/

theorem rep_npPi : Rep 53 npPi ∧ Rep 53 (2 * npPi) := by
  refine ⟨⟨884279719003555, -48, by norm_num, ?_⟩, ⟨884279719003555, -47, by norm_num, ?_⟩⟩
  · rw [npPi, zpow_neg, div_eq_mul_inv]; norm_cast
  · rw [npPi, zpow_neg]; norm_num

theorem npPi_halfTurn (hop : ∀ x y, a.op x y → Nearest 53 x y) : HalfTurn a ((2 : ℝ)⁻¹ ^ 53) npPi where
  le := by
    have := Real.pi_gt_d20
    rw [npPi]; norm_num at *; linarith
  close := by
    have := Real.pi_lt_d20
    have := Real.pi_gt_d2
    rw [npPi]; norm_num at *; linarith
  half := fun _ _ h hx => nearest_le (hop _ _ h) rep_npPi.1 hx
  full := fun _ _ h hx => nearest_le (hop _ _ h) rep_npPi.2 hx
  full' := fun _ _ h hx => nearest_ge (hop _ _ h) rep_npPi.2 hx

end Newt
