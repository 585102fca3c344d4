import Verif.Model.GlibShapes
import Verif.Proofs.GlibShapes
import Verif.Proofs.Pg2Multi
import Verif.Proofs.WignerRot
import Mathlib.Analysis.Real.Pi.Bounds

/-!
# C88: cartesian and cylindrical coordinates

`cart_2_cyl` and `cyl_2_cart` of newt/glibShapes.py act row by row.
-/

namespace Newt

open Shp

/-- C88: the radius is not negative, the azimuth lies in `[0, 2 pi)`, the height is kept. -/
theorem C88_range (v : V3) :
    0 ≤ cart2cyl v 0 ∧ 0 ≤ cart2cyl v 1 ∧ cart2cyl v 1 < 2 * Real.pi ∧ cart2cyl v 2 = v 2 :=
  ⟨Real.sqrt_nonneg _, (pyMod_bounds _).1, (pyMod_bounds _).2, rfl⟩

/-- C88: converting to cylindrical coordinates and back gives the point again, on the axis too. -/
theorem C88_round_trip (v : V3) : cyl2cart (cart2cyl v) = v := by
  funext i
  fin_cases i
  · simp only [cyl2cart, cart2cyl, Fin.zero_eta, Matrix.cons_val]
    rw [pyMod_two_pi_cos, Real.cos_add_two_pi, polar_x]
  · simp only [cyl2cart, cart2cyl, Fin.mk_one, Matrix.cons_val]
    rw [pyMod_two_pi_sin, Real.sin_add_two_pi, polar_y]
  · rfl

/-- Two azimuths in `[0, 2 pi)` with the same sine and cosine are equal. -/
theorem azimuth_unique {a b : ℝ} (ha : 0 ≤ a) (ha' : a < 2 * Real.pi) (hb : 0 ≤ b) (hb' : b < 2 * Real.pi)
    (hc : Real.cos a = Real.cos b) (hs : Real.sin a = Real.sin b) : a = b := by
  have h : Real.cos (a - b) = 1 := by
    rw [Real.cos_sub, hc, hs]
    nlinarith [Real.sin_sq_add_cos_sq b]
  have := (Real.cos_eq_one_iff_of_lt_of_lt (by linarith) (by linarith)).1 h
  linarith

/-- C88: cylindrical coordinates survive the conversion to cartesian ones and back exactly if they are in standard form:
positive radius and azimuth in `[0, 2 pi)`, or radius and azimuth both zero. -/
theorem C88_round_trip_cyl (w : V3) :
    cart2cyl (cyl2cart w) = w ↔ (0 < w 0 ∧ 0 ≤ w 1 ∧ w 1 < 2 * Real.pi) ∨ (w 0 = 0 ∧ w 1 = 0) := by
  have hpi := Real.pi_pos
  have hrad : cart2cyl (cyl2cart w) 0 = |w 0| := by
    simp only [cyl2cart, cart2cyl, Matrix.cons_val]
    rw [← Real.sqrt_sq_eq_abs]
    congr 1
    nlinarith [Real.sin_sq_add_cos_sq (w 1)]
  constructor
  · intro h
    obtain ⟨h0, h1, h2, -⟩ := C88_range (cyl2cart w)
    rw [h] at h0 h1 h2
    rcases h0.lt_or_eq with h0 | h0
    · exact Or.inl ⟨h0, h1, h2⟩
    · right
      refine ⟨h0.symm, ?_⟩
      have h3 := congrFun h 1
      rw [← h3]
      simp only [cyl2cart, cart2cyl, Matrix.cons_val, ← h0, zero_mul]
      have h4 : arctan2 0 0 = 0 := by
        rw [arctan2]
        exact Complex.arg_zero
      rw [h4, pyMod, zero_add, div_self (by positivity)]
      simp
  · rintro (⟨h0, h1, h2⟩ | ⟨h0, h1⟩)
    · have hr : cart2cyl (cyl2cart w) 0 = w 0 := by rw [hrad, abs_of_pos h0]
      have hz := C88_round_trip (cyl2cart w)
      have e0 := congrFun hz 0
      have e1 := congrFun hz 1
      obtain ⟨-, h3, h4, h5⟩ := C88_range (cyl2cart w)
      generalize cart2cyl (cyl2cart w) = u at *
      simp only [cyl2cart, Matrix.cons_val] at e0 e1 h5
      rw [hr] at e0 e1
      have e := azimuth_unique h3 h4 h1 h2 (mul_left_cancel₀ h0.ne' e0) (mul_left_cancel₀ h0.ne' e1)
      funext i
      fin_cases i
      · exact hr
      · exact e
      · exact h5
    · have h4 : arctan2 0 0 = 0 := by
        rw [arctan2]
        exact Complex.arg_zero
      funext i
      fin_cases i
      · change cart2cyl (cyl2cart w) 0 = w 0
        rw [hrad, h0, abs_zero]
      · change cart2cyl (cyl2cart w) 1 = w 1
        simp only [cyl2cart, cart2cyl, Matrix.cons_val, h0, h1, zero_mul]
        rw [h4, pyMod, zero_add, div_self (by positivity)]
        simp
      · rfl

/-- A case of each: the point `(-1, -1, 2)`, and the coordinates `(2, 3, 1)`. -/
example : cyl2cart (cart2cyl ![-1, -1, 2]) = ![-1, -1, 2] ∧ cart2cyl (cyl2cart ![2, 3, 1]) = ![2, 3, 1] :=
  ⟨C88_round_trip _, (C88_round_trip_cyl _).2 (Or.inl ⟨by norm_num, by norm_num, by simp; linarith [Real.pi_gt_three]⟩)⟩

end Newt
