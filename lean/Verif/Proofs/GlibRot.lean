import Verif.Proofs.Glib
import Mathlib.LinearAlgebra.Matrix.Determinant.Basic
import Mathlib.LinearAlgebra.Matrix.Notation

/-! # Lemmas about Rodrigues' matrix -/

namespace Newt

open Spec Matrix

theorem rotW_mulVec (u x : V3) : (rotW u).mulVec x = crossProduct u x := by
  ext i; fin_cases i <;> simp [rotW, crossProduct, Matrix.mulVec, dotProduct, Fin.sum_univ_three] <;>
    ring

theorem rotW_transpose (u : V3) : (rotW u)ᵀ = -rotW u := by
  ext i j; fin_cases i <;> fin_cases j <;> simp [rotW]

theorem rotW_cube (u : V3) (hu : u 0 ^ 2 + u 1 ^ 2 + u 2 ^ 2 = 1) :
    rotW u * rotW u * rotW u = -rotW u := by
  ext i j
  fin_cases i <;> fin_cases j <;>
    simp [rotW, Matrix.mul_apply, Fin.sum_univ_three] <;>
    first
      | ring1
      | linear_combination (u 0) * hu
      | linear_combination (u 1) * hu
      | linear_combination (u 2) * hu
      | linear_combination (-u 0) * hu
      | linear_combination (-u 1) * hu
      | linear_combination (-u 2) * hu

theorem two_sin_half_sq (t : ℝ) : 2 * Real.sin (t / 2) ^ 2 = 1 - Real.cos t := by
  have h := Real.cos_two_mul (t / 2)
  have h2 := Real.sin_sq_add_cos_sq (t / 2)
  rw [show 2 * (t / 2) = t by ring] at h
  linarith

theorem rotR_eq (t : ℝ) (u : V3) :
    rotR t u = 1 + Real.sin t • rotW u + (1 - Real.cos t) • (rotW u * rotW u) := by
  rw [rotR, two_sin_half_sq]

theorem rotR_mul (u : V3) (hu : u 0 ^ 2 + u 1 ^ 2 + u 2 ^ 2 = 1) (a b : ℝ) :
    rotR a u * rotR b u = rotR (a + b) u := by
  rw [rotR_eq, rotR_eq, rotR_eq, Real.sin_add, Real.cos_add]
  set W := rotW u with hW
  have h3 : W * W * W = -W := rotW_cube u hu
  have h3' : W * (W * W) = -W := by rw [← mul_assoc, h3]
  have h4 : W * W * (W * W) = -(W * W) := by rw [← mul_assoc, h3, neg_mul]
  simp only [mul_add, add_mul, one_mul, mul_one, smul_mul_assoc, mul_smul_comm, h3, h3', h4]
  module

theorem rotR_zero (u : V3) : rotR 0 u = 1 := by
  rw [rotR_eq]; simp

theorem rotR_transpose (t : ℝ) (u : V3) : (rotR t u)ᵀ = rotR (-t) u := by
  rw [rotR_eq, rotR_eq]
  simp [Matrix.transpose_add, Matrix.transpose_mul, rotW_transpose]

theorem rotR_orth (u : V3) (hu : u 0 ^ 2 + u 1 ^ 2 + u 2 ^ 2 = 1) (t : ℝ) :
    (rotR t u)ᵀ * rotR t u = 1 := by
  rw [rotR_transpose, rotR_mul u hu, neg_add_cancel, rotR_zero]

theorem rotR_dot (u : V3) (hu : u 0 ^ 2 + u 1 ^ 2 + u 2 ^ 2 = 1) (t : ℝ) (x y : V3) :
    (rotR t u).mulVec x ⬝ᵥ (rotR t u).mulVec y = x ⬝ᵥ y := by
  rw [Matrix.dotProduct_mulVec, ← Matrix.mulVec_transpose, Matrix.mulVec_mulVec, rotR_orth u hu,
    Matrix.one_mulVec]

theorem rotR_det (u : V3) (hu : u 0 ^ 2 + u 1 ^ 2 + u 2 ^ 2 = 1) (t : ℝ) :
    (rotR t u).det = 1 := by
  have h1 : rotR t u = rotR (t / 2) u * rotR (t / 2) u := by
    rw [rotR_mul u hu, add_halves]
  have h2 : (rotR (t / 2) u).det * (rotR (t / 2) u).det = 1 := by
    have := congrArg Matrix.det (rotR_orth u hu (t / 2))
    rwa [Matrix.det_mul, Matrix.det_transpose, Matrix.det_one] at this
  rw [h1, Matrix.det_mul, h2]

theorem transpose_mulVec_cross (M : Matrix (Fin 3) (Fin 3) ℝ) (x y : V3) :
    Mᵀ.mulVec (crossProduct (M.mulVec x) (M.mulVec y)) = M.det • crossProduct x y := by
  rw [Matrix.det_fin_three]
  ext i; fin_cases i <;>
    simp [crossProduct, Matrix.mulVec, dotProduct, Fin.sum_univ_three, Matrix.transpose_apply] <;>
    ring

theorem rotR_cross (u : V3) (hu : u 0 ^ 2 + u 1 ^ 2 + u 2 ^ 2 = 1) (t : ℝ) (x y : V3) :
    crossProduct ((rotR t u).mulVec x) ((rotR t u).mulVec y) =
      (rotR t u).mulVec (crossProduct x y) := by
  have h := transpose_mulVec_cross (rotR t u) x y
  rw [rotR_det u hu, one_smul] at h
  have h2 : rotR t u * (rotR t u)ᵀ = 1 := by
    rw [rotR_transpose, rotR_mul u hu, add_neg_cancel, rotR_zero]
  rw [← h, Matrix.mulVec_mulVec, h2, Matrix.one_mulVec]

theorem modulus_eq_dot (v : V3) : modulus v = Real.sqrt (v ⬝ᵥ v) := by
  simp [modulus, dotProduct, Fin.sum_univ_three, sq]

theorem rotR_modulus (u : V3) (hu : u 0 ^ 2 + u 1 ^ 2 + u 2 ^ 2 = 1) (t : ℝ) (x : V3) :
    modulus ((rotR t u).mulVec x) = modulus x := by
  rw [modulus_eq_dot, modulus_eq_dot, rotR_dot u hu]

/-- the unit vector of `rotate_point_array` -/
noncomputable def unitOf (v : V3) : V3 := fun i => v i / modulus v

theorem unitOf_unit {v : V3} (hv : v ≠ 0) :
    unitOf v 0 ^ 2 + unitOf v 1 ^ 2 + unitOf v 2 ^ 2 = 1 := by
  have h : modulus v ≠ 0 := fun e => hv ((modulus_eq_zero v).1 e)
  have h2 : modulus v ^ 2 = v 0 ^ 2 + v 1 ^ 2 + v 2 ^ 2 := Real.sq_sqrt (by positivity)
  simp only [unitOf, div_pow]
  field_simp
  exact h2.symm

theorem rotMatrix_some {v : V3} (hv : v ≠ 0) (t : ℝ) :
    rotMatrix t v = some (rotR t (unitOf v)) := by
  have h : modulus v ≠ 0 := fun e => hv ((modulus_eq_zero v).1 e)
  simp only [rotMatrix, if_neg h]
  rfl

theorem rotMatrix_none (t : ℝ) : rotMatrix t 0 = none := by
  simp [rotMatrix, (modulus_eq_zero 0).2]

/-- Rotation of a single vector, as a function. -/
noncomputable def rotF (t : ℝ) (v : V3) (x : V3) : V3 := (rotR t (unitOf v)).mulVec x

theorem rotate_some {v : V3} (hv : v ≠ 0) (t : ℝ) (A : PtArray) :
    rotate_point_array A t v = some (A.map fun p => ⟨p.mass, rotF t v p.pos⟩) := by
  rw [rotate_point_array, rotMatrix_some hv]
  exact mapM_opt_some _ _ _ (fun a _ => rfl)

theorem rotR_mulVec (t : ℝ) (u x : V3) :
    (rotR t u).mulVec x = x + Real.sin t • crossProduct u x +
      (1 - Real.cos t) • crossProduct u (crossProduct u x) := by
  rw [rotR_eq, Matrix.add_mulVec, Matrix.add_mulVec, Matrix.one_mulVec, Matrix.smul_mulVec,
    Matrix.smul_mulVec, ← Matrix.mulVec_mulVec, rotW_mulVec, rotW_mulVec]

theorem unitOf_eq (v : V3) : unitOf v = (modulus v)⁻¹ • v := by
  ext i; simp [unitOf, div_eq_inv_mul]

theorem rotF_isRotation {v : V3} (hv : v ≠ 0) (t : ℝ) : IsRotationAbout v t (rotF t v) where
  map_add x y := Matrix.mulVec_add _ _ _
  map_smul c x := Matrix.mulVec_smul _ _ _
  axis := by
    rw [rotF, rotR_mulVec, unitOf_eq]; simp
  plane x hx := by
    have hm : modulus v ≠ 0 := fun e => hv ((modulus_eq_zero v).1 e)
    have h2 : modulus v ^ 2 = v ⬝ᵥ v := by
      rw [modulus_eq_dot, Real.sq_sqrt]
      simp [dotProduct, Fin.sum_univ_three]
      nlinarith [sq_nonneg (v 0), sq_nonneg (v 1), sq_nonneg (v 2)]
    have hcc : crossProduct v (crossProduct v x) = -(v ⬝ᵥ v) • x := by
      have e : crossProduct v (crossProduct v x) = (v ⬝ᵥ x) • v - (v ⬝ᵥ v) • x := by
        ext i; fin_cases i <;>
          simp [crossProduct, dotProduct, Fin.sum_univ_three] <;> ring
      rw [e, hx]; simp
    rw [rotF, rotR_mulVec, unitOf_eq]
    simp only [LinearMap.map_smul, LinearMap.smul_apply]
    rw [hcc, ← modulus_eq_dot, ← h2, smul_smul, smul_smul, smul_smul, smul_smul]
    have e : (1 - Real.cos t) * (modulus v)⁻¹ * (modulus v)⁻¹ * -modulus v ^ 2 =
        Real.cos t - 1 := by
      field_simp; ring
    rw [e, div_eq_mul_inv]
    module

theorem rotF_sub (t : ℝ) (v x y : V3) : rotF t v (x - y) = rotF t v x - rotF t v y :=
  Matrix.mulVec_sub _ _ _

theorem rotF_modulus {v : V3} (hv : v ≠ 0) (t : ℝ) (x : V3) :
    modulus (rotF t v x) = modulus x := rotR_modulus _ (unitOf_unit hv) _ _

theorem rotF_injective {v : V3} (hv : v ≠ 0) (t : ℝ) : Function.Injective (rotF t v) := by
  intro x y h
  have : modulus (x - y) = 0 := by
    rw [← rotF_modulus hv t, rotF_sub, h, sub_self]; exact (modulus_eq_zero _).2 rfl
  exact sub_eq_zero.1 ((modulus_eq_zero _).1 this)

end Newt
