import Verif.Props.Field
import Verif.Proofs.Force
import Verif.Proofs.Pg2Multi2

/-!
# C123: the moments of degree one and two
-/

namespace Newt

open Spec Polynomial

theorem Rsol_two (v : V3) : Rsol 2 0 v = ((v 2 : ℂ) ^ 2 - ((v 0 : ℂ) ^ 2 + (v 1 : ℂ) ^ 2) / 2) / 2 ∧
    Rsol 2 1 v = -((v 2 : ℂ) * ((v 0 : ℂ) - Complex.I * v 1)) / 2 ∧ Rsol 2 2 v = ((v 0 : ℂ) - Complex.I * v 1) ^ 2 / 8 := by
  have e : uPoly v ^ 2 = C ((-((v 0 : ℂ) - Complex.I * v 1) / 2) ^ 2) * X ^ 4 + C (2 * (-((v 0 : ℂ) - Complex.I * v 1) / 2) * v 2) * X ^ 3 +
      C ((v 2 : ℂ) ^ 2 + 2 * (-((v 0 : ℂ) - Complex.I * v 1) / 2) * (((v 0 : ℂ) + Complex.I * v 1) / 2)) * X ^ 2 +
      C (2 * (v 2 : ℂ) * (((v 0 : ℂ) + Complex.I * v 1) / 2)) * X + C ((((v 0 : ℂ) + Complex.I * v 1) / 2) ^ 2) := by
    rw [uPoly]
    simp only [map_mul, map_add, map_pow]
    have : (C (2 : ℂ) : ℂ[X]) = 2 := rfl
    rw [this]
    ring
  have hI := Complex.I_sq
  refine ⟨?_, ?_, ?_⟩
  · rw [Rsol, zc, if_pos (by norm_num), show ((2 : ℕ) : ℤ) + 0 = ((2 : ℕ) : ℤ) by norm_num, Int.toNat_natCast, e]
    simp only [coeff_add, coeff_C_mul, coeff_X_pow, coeff_X, coeff_C]
    norm_num
    ring_nf
    rw [hI]; ring
  · rw [Rsol, zc, if_pos (by norm_num), show ((2 : ℕ) : ℤ) + 1 = ((3 : ℕ) : ℤ) by norm_num, Int.toNat_natCast, e]
    simp only [coeff_add, coeff_C_mul, coeff_X_pow, coeff_X, coeff_C]
    norm_num
    ring
  · rw [Rsol, zc, if_pos (by norm_num), show ((2 : ℕ) : ℤ) + 2 = ((4 : ℕ) : ℤ) by norm_num, Int.toNat_natCast, e]
    simp only [coeff_add, coeff_C_mul, coeff_X_pow, coeff_X, coeff_C]
    norm_num
    ring

theorem solidS_low (v : V3) :
    solidS 1 0 v = (Real.sqrt (3 / (4 * Real.pi)) : ℂ) * (v 2 : ℂ) ∧
    solidS 1 1 v = -(Real.sqrt (3 / (8 * Real.pi)) : ℂ) * ((v 0 : ℂ) - Complex.I * v 1) ∧
    solidS 2 0 v = (Real.sqrt (5 / (16 * Real.pi)) : ℂ) * (2 * (v 2 : ℂ) ^ 2 - (v 0 : ℂ) ^ 2 - (v 1 : ℂ) ^ 2) ∧
    solidS 2 1 v = -(Real.sqrt (15 / (8 * Real.pi)) : ℂ) * ((v 2 : ℂ) * ((v 0 : ℂ) - Complex.I * v 1)) ∧
    solidS 2 2 v = (Real.sqrt (15 / (32 * Real.pi)) : ℂ) * ((v 0 : ℂ) - Complex.I * v 1) ^ 2 := by
  have hpi := Real.pi_pos
  have t2 : Int.toNat 2 = 2 := rfl
  have t3 : Int.toNat 3 = 3 := rfl
  have t4 : Int.toNat 4 = 4 := rfl
  have k : ∀ (x y : ℝ) (c : ℝ), 0 ≤ c → x = c ^ 2 * y → Real.sqrt x = c * Real.sqrt y := by
    rintro x y c hc rfl
    rw [Real.sqrt_mul (sq_nonneg c), Real.sqrt_sq hc]
  obtain ⟨r0, r1, r2⟩ := Rsol_two v
  refine ⟨?_, ?_, ?_, ?_, ?_⟩
  · rw [solidS, Rsol_one_zero]
    have : Nlm 1 0 = Real.sqrt (3 / (4 * Real.pi)) := by
      rw [Nlm]; congr 1; norm_num [Nat.factorial, t2, t3, t4]
    rw [this]
  · rw [solidS, (Rsol_one v).1]
    have : Nlm 1 1 = 2 * Real.sqrt (3 / (8 * Real.pi)) := by
      rw [Nlm]; refine k _ _ 2 (by norm_num) ?_; norm_num [Nat.factorial, t2, t3, t4]; field_simp; norm_num
    rw [this]; push_cast; ring
  · rw [solidS, r0]
    have : Nlm 2 0 = 4 * Real.sqrt (5 / (16 * Real.pi)) := by
      rw [Nlm]; refine k _ _ 4 (by norm_num) ?_; norm_num [Nat.factorial, t2, t3, t4]; field_simp
    rw [this]; push_cast; ring
  · rw [solidS, r1]
    have : Nlm 2 1 = 2 * Real.sqrt (15 / (8 * Real.pi)) := by
      rw [Nlm]; refine k _ _ 2 (by norm_num) ?_; norm_num [Nat.factorial, t2, t3, t4]; field_simp; try norm_num
    rw [this]; push_cast; ring
  · rw [solidS, r2]
    have : Nlm 2 2 = 8 * Real.sqrt (15 / (32 * Real.pi)) := by
      rw [Nlm]; refine k _ _ 8 (by norm_num) ?_; norm_num [Nat.factorial, t2, t3, t4]; field_simp; norm_num
    rw [this]; push_cast; ring

/-- C123: the inner moments of degree one are the mass times the centre of mass, those of degree two the components of the quadrupole tensor. -/
theorem C123_inner (L : ℕ) (hL : 2 ≤ L) (A : PtArray) (hA : OriginLast A) :
    ∃ q, qmoments L A = some q ∧
      q.get 1 0 = (Real.sqrt (3 / (4 * Real.pi)) : ℂ) * ((A.map fun p => p.mass * p.pos 2).sum : ℝ) ∧
      q.get 1 1 = -(Real.sqrt (3 / (8 * Real.pi)) : ℂ) * (((A.map fun p => p.mass * p.pos 0).sum : ℝ) - Complex.I * ((A.map fun p => p.mass * p.pos 1).sum : ℝ)) ∧
      q.get 2 0 = (Real.sqrt (5 / (16 * Real.pi)) : ℂ) * ((A.map fun p => p.mass * (2 * p.pos 2 ^ 2 - p.pos 0 ^ 2 - p.pos 1 ^ 2)).sum : ℝ) ∧
      q.get 2 1 = -(Real.sqrt (15 / (8 * Real.pi)) : ℂ) *
        (((A.map fun p => p.mass * (p.pos 2 * p.pos 0)).sum : ℝ) - Complex.I * ((A.map fun p => p.mass * (p.pos 2 * p.pos 1)).sum : ℝ)) ∧
      q.get 2 2 = (Real.sqrt (15 / (32 * Real.pi)) : ℂ) *
        (((A.map fun p => p.mass * (p.pos 0 ^ 2 - p.pos 1 ^ 2)).sum : ℝ) - Complex.I * ((A.map fun p => p.mass * (2 * p.pos 0 * p.pos 1)).sum : ℝ)) := by
  refine ⟨_, qmoments_closed L A (Or.inr hA), ?_⟩
  rw [Mom.get_ofFn _ (by omega) (by simp), Mom.get_ofFn _ (by omega) (by simp; omega), Mom.get_ofFn _ (by omega) (by simp), Mom.get_ofFn _ (by omega) (by simp; omega),
    Mom.get_ofFn _ (by omega) (by simp; omega)]
  clear hA
  induction A with
  | nil => simp [innerMoment]
  | cons p A ih =>
    obtain ⟨h1, h2, h3, h4, h5⟩ := ih
    obtain ⟨s1, s2, s3, s4, s5⟩ := solidS_low p.pos
    have hI := Complex.I_sq
    have e : ∀ l m, innerMoment (p :: A) l m = (p.mass : ℂ) * solidS l m p.pos + innerMoment A l m := fun l m => by simp [innerMoment]
    simp only [e, h1, h2, h3, h4, h5, s1, s2, s3, s4, s5, List.map_cons, List.sum_cons]
    push_cast
    refine ⟨by ring, by ring, by ring, by ring, ?_⟩
    ring_nf
    simp only [hI]
    ring

/-- C123: the outer moments of degree one are the field of the array at the origin (the force on a unit mass there), those of degree two the gravity gradient. -/
theorem C123_outer (L : ℕ) (hL : 2 ≤ L) (B : PtArray) (hB : OffOrigin B) :
    ∃ F, gmmr2_array ⟨1, 0⟩ B = some F ∧
      BIG_G * (Qmomentsb L B).get 1 0 = (Real.sqrt (3 / (4 * Real.pi)) : ℂ) * (F 2 : ℝ) ∧
      BIG_G * (Qmomentsb L B).get 1 1 = -(Real.sqrt (3 / (8 * Real.pi)) : ℂ) * ((F 0 : ℝ) + Complex.I * (F 1 : ℝ)) ∧
      BIG_G * (Qmomentsb L B).get 2 0 = (Real.sqrt (5 / (16 * Real.pi)) : ℂ) * (tidal 1 B 0 2 2 : ℝ) ∧
      BIG_G * (Qmomentsb L B).get 2 1 = -(Real.sqrt (15 / (8 * Real.pi)) : ℂ) / 3 * ((tidal 1 B 0 0 2 : ℝ) + Complex.I * (tidal 1 B 0 1 2 : ℝ)) ∧
      BIG_G * (Qmomentsb L B).get 2 2 = (Real.sqrt (15 / (32 * Real.pi)) : ℂ) / 3 *
        ((tidal 1 B 0 0 0 : ℝ) - (tidal 1 B 0 1 1 : ℝ) + 2 * Complex.I * (tidal 1 B 0 0 1 : ℝ)) := by
  refine ⟨_, gmmr2_array_some fun b hb => (hB b hb).symm, ?_⟩
  rw [Qmomentsb_closed L B hB]
  rw [Mom.get_ofFn _ (by omega) (by simp), Mom.get_ofFn _ (by omega) (by simp; omega), Mom.get_ofFn _ (by omega) (by simp), Mom.get_ofFn _ (by omega) (by simp; omega),
    Mom.get_ofFn _ (by omega) (by simp; omega)]
  induction B with
  | nil => simp [outerMoment, tidal]
  | cons b B ih =>
    obtain ⟨h1, h2, h3, h4, h5⟩ := ih fun p hp => hB p (List.mem_cons_of_mem _ hp)
    obtain ⟨s1, s2, s3, s4, s5⟩ := solidS_low b.pos
    have hI := Complex.I_sq
    have hr : modulus b.pos ≠ 0 := (modulus_pos (hB b (by simp))).ne'
    have hr2 : modulus b.pos ^ 2 = b.pos 0 ^ 2 + b.pos 1 ^ 2 + b.pos 2 ^ 2 := by rw [modulus, Real.sq_sqrt (by positivity)]
    have e : ∀ l m, outerMoment (b :: B) l m = (b.mass : ℂ) * solidO l m b.pos + outerMoment B l m := fun l m => by simp [outerMoment]
    have et : ∀ i j, tidal 1 (b :: B) 0 i j = BIG_G * 1 * b.mass * (3 * b.pos i * b.pos j / modulus b.pos ^ 5 - (if i = j then 1 else 0) / modulus b.pos ^ 3) + tidal 1 B 0 i j := by
      intro i j
      simp [tidal, dist3_eq_sqrt, sqd_eq, Real.sqrt_sq (modulus_nonneg _)]
    simp only [e, mul_add, h1, h2, h3, h4, h5, List.map_cons, List.sum_cons, solidO, s1, s2, s3, s4, s5, et, Pi.add_apply, Pi.smul_apply, gW, smul_eq_mul, sub_zero]
    have hrc : (modulus b.pos : ℂ) ≠ 0 := by exact_mod_cast hr
    have hr2c : (modulus b.pos : ℂ) ^ 2 = (b.pos 0 : ℂ) ^ 2 + (b.pos 1 : ℂ) ^ 2 + (b.pos 2 : ℂ) ^ 2 := by exact_mod_cast hr2
    push_cast
    simp only [map_mul, map_neg, map_sub, map_pow, Complex.conj_ofReal, Complex.conj_I, map_ofNat]
    norm_num
    refine ⟨?_, ?_, ?_, ?_, ?_⟩
    · field_simp
    · field_simp
      ring
    · field_simp
      rw [hr2c]
      ring
    · field_simp
      ring
    · field_simp
      ring_nf
      simp only [hI]
      ring

/-- C123: the moments of degree one vanish exactly when the centre of mass is at the origin. -/
theorem C123_centred (L : ℕ) (hL : 2 ≤ L) (A : PtArray) (hA : OriginLast A) (q : Mom L) (hq : qmoments L A = some q) :
    (q.get 1 0 = 0 ∧ q.get 1 1 = 0) ↔ ∀ i, (A.map fun p => p.mass * p.pos i).sum = 0 := by
  have hpi := Real.pi_pos
  obtain ⟨q', e, h0, h1, -⟩ := C123_inner L hL A hA
  rw [hq, Option.some.injEq] at e
  subst e
  have n0 : (Real.sqrt (3 / (4 * Real.pi)) : ℂ) ≠ 0 := by exact_mod_cast (Real.sqrt_pos.2 (by positivity)).ne'
  have n1 : -(Real.sqrt (3 / (8 * Real.pi)) : ℂ) ≠ 0 := by
    rw [neg_ne_zero]; exact_mod_cast (Real.sqrt_pos.2 (by positivity)).ne'
  rw [h0, h1, mul_eq_zero, or_iff_right n0, mul_eq_zero, or_iff_right n1, Complex.ofReal_eq_zero, Complex.ext_iff]
  simp
  constructor
  · rintro ⟨hz, hx, hy⟩ i
    fin_cases i
    · exact hx
    · exact hy
    · exact hz
  · intro h
    exact ⟨h 2, h 0, h 1⟩

/-- Instance: two equal masses above and below the origin have no dipole moment and a quadrupole moment. -/
example : ∃ q : Mom 2, qmoments 2 [⟨1, ![0, 0, 2]⟩, ⟨1, ![0, 0, -2]⟩] = some q ∧ q.get 1 0 = 0 ∧ q.get 1 1 = 0 ∧
    q.get 2 0 = (Real.sqrt (5 / (16 * Real.pi)) : ℂ) * (16 : ℝ) := by
  have hA : OriginLast [⟨1, ![0, 0, 2]⟩, ⟨1, ![0, 0, -2]⟩] := ⟨[⟨1, ![0, 0, 2]⟩, ⟨1, ![0, 0, -2]⟩], [], by simp, by
    intro p hp e
    simp only [List.mem_cons, List.not_mem_nil, or_false] at hp
    rcases hp with rfl | rfl <;> simpa using congrFun e 2, by simp⟩
  obtain ⟨q, e, -, -, h2, -⟩ := C123_inner 2 le_rfl _ hA
  have h := (C123_centred 2 le_rfl _ hA q e).2 (by intro i; fin_cases i <;> simp)
  refine ⟨q, e, h.1, h.2, ?_⟩
  rw [h2]
  congr 2
  simp
  norm_num

/-- Instance: the outer moments of a mass on the axis. -/
example : ∃ F, gmmr2_array ⟨1, 0⟩ [⟨3, ![0, 0, 2]⟩] = some F ∧
    BIG_G * (Qmomentsb 2 [⟨3, ![0, 0, 2]⟩]).get 1 0 = (Real.sqrt (3 / (4 * Real.pi)) : ℂ) * (F 2 : ℝ) := by
  obtain ⟨F, h1, h2, -⟩ := C123_outer 2 le_rfl [⟨3, ![0, 0, 2]⟩] (by
    intro p hp e
    rw [List.mem_singleton] at hp
    subst hp
    simpa using congrFun e 2)
  exact ⟨F, h1, h2⟩

end Newt
