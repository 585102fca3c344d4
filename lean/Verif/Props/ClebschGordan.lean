import Verif.Proofs.ClebschGordan

/-!
# Properties C22-C24 of `newt/clebschGordan.py`
-/

namespace Newt

open Spec

/-- C22: outside the selection rules both routines return zero. -/
theorem C22_selection (j1 j2 m1 m2 J M : ℤ)
    (h : j1 < |m1| ∨ j2 < |m2| ∨ J < |M| ∨ j1 + j2 < J ∨ J < |j1 - j2| ∨ M ≠ m1 + m2) :
    cgCoeff j1 j2 m1 m2 J M = 0 ∧ cgCoeff2 j1 j2 m1 m2 J M = 0 := by
  rw [cgCoeff2_eq, and_self]
  apply cgCoeff_invalid
  rintro ⟨h1, h2, h3, h4, h5, h6⟩
  rcases h with h | h | h | h | h | h <;> first | omega | exact h h6

/-- C23. -/
theorem C23_implementations_agree (j1 j2 m1 m2 J M : ℤ) :
    cgCoeff j1 j2 m1 m2 J M = cgCoeff2 j1 j2 m1 m2 J M := (cgCoeff2_eq j1 j2 m1 m2 J M).symm

/-- C24: on valid arguments `cgCoeff` is Racah's formula. -/
theorem C24_racah (j1 j2 m1 m2 J M : ℤ) (h : CGValid j1 j2 m1 m2 J M) :
    cgCoeff j1 j2 m1 m2 J M = racah j1 j2 m1 m2 J M := cgCoeff_valid h

/-- C24: reflection, for all integer arguments. -/
theorem C24_reflection (j1 j2 m1 m2 J M : ℤ) :
    cgCoeff j1 j2 (-m1) (-m2) J (-M) = (-1) ^ (J - j1 - j2) * cgCoeff j1 j2 m1 m2 J M := by
  by_cases h : CGValid j1 j2 m1 m2 J M
  · have h' : CGValid j1 j2 (-m1) (-m2) J (-M) := by
      obtain ⟨h1, h2, h3, h4, h5, h6⟩ := h
      exact ⟨by rwa [abs_neg], by rwa [abs_neg], by rwa [abs_neg], h4, h5, by omega⟩
    rw [cgCoeff_valid h, cgCoeff_valid h', racah_neg]
  · have h' : ¬ CGValid j1 j2 (-m1) (-m2) J (-M) := by
      rintro ⟨h1, h2, h3, h4, h5, h6⟩
      rw [abs_neg] at h1 h2 h3
      exact h ⟨h1, h2, h3, h4, h5, by omega⟩
    rw [cgCoeff_invalid h, cgCoeff_invalid h', mul_zero]

/-- C24: the stretched coefficients `J = j1 + j2`. -/
theorem C24_stretched (j1 j2 m1 m2 : ℤ) (h1 : |m1| ≤ j1) (h2 : |m2| ≤ j2) :
    cgCoeff j1 j2 m1 m2 (j1 + j2) (m1 + m2) =
      Real.sqrt (fct (2 * j1) * fct (2 * j2) / fct (2 * (j1 + j2)) *
        (fct (j1 + j2 + (m1 + m2)) * fct (j1 + j2 - (m1 + m2)) /
          (fct (j1 + m1) * fct (j1 - m1) * (fct (j2 + m2) * fct (j2 - m2))))) := by
  rw [cgCoeff_valid, racah_stretched j1 j2 m1 m2 h1 h2]
  have a1 := abs_le.1 h1
  have a2 := abs_le.1 h2
  exact ⟨h1, h2, abs_le.2 ⟨by omega, by omega⟩, abs_le.2 ⟨by omega, by omega⟩, le_rfl, rfl⟩

/-- C24: the coefficients with `J = j2 - j1`. -/
theorem C24_antistretched (j1 j2 m1 m2 : ℤ) (h1 : |m1| ≤ j1) (h2 : |m2| ≤ j2) (h12 : j1 ≤ j2)
    (hM : |m1 + m2| ≤ j2 - j1) :
    cgCoeff j1 j2 m1 m2 (j2 - j1) (m1 + m2) = (-1) ^ (j1 - m1) *
      Real.sqrt (fct (2 * (j2 - j1) + 1) * fct (2 * j1) / fct (2 * j2 + 1) *
        (fct (j2 + m2) * fct (j2 - m2) /
          (fct (j1 + m1) * fct (j1 - m1) *
            (fct (j2 - j1 + (m1 + m2)) * fct (j2 - j1 - (m1 + m2)))))) := by
  rw [cgCoeff_valid, racah_antistretched j1 j2 m1 m2 h1 h2 h12 hM]
  have a1 := abs_le.1 h1
  have a2 := abs_le.1 h2
  exact ⟨h1, h2, hM, abs_le.2 ⟨by omega, by omega⟩, by omega, rfl⟩

/-- a concrete value: `<1 1; 1 -1 | 0 0> = 1/sqrt 3` -/
example : cgCoeff 1 1 1 (-1) 0 0 = Real.sqrt (1 / 3) := by
  have h := C24_antistretched 1 1 1 (-1) (by norm_num) (by norm_num) le_rfl (by norm_num)
  norm_num [fct] at h
  rw [h]
  norm_num [show Int.toNat 2 = 2 from rfl, show Int.toNat 3 = 3 from rfl, Nat.factorial]

/-- the same, with the other sign of the magnetic numbers -/
example : cgCoeff 1 1 (-1) 1 0 0 = Real.sqrt (1 / 3) := by
  have h := C24_antistretched 1 1 (-1) 1 (by norm_num) (by norm_num) le_rfl (by norm_num)
  norm_num [fct] at h
  rw [h]
  norm_num [show Int.toNat 2 = 2 from rfl, show Int.toNat 3 = 3 from rfl, Nat.factorial]

/-- `<1 1; 1 0 | 2 1> = 1/sqrt 2` -/
example : cgCoeff 1 1 1 0 2 1 = Real.sqrt (1 / 2) := by
  have h := C24_stretched 1 1 1 0 (by norm_num) (by norm_num)
  norm_num [fct] at h
  rw [h]
  norm_num [show Int.toNat 2 = 2 from rfl, show Int.toNat 3 = 3 from rfl,
    show Int.toNat 4 = 4 from rfl, Nat.factorial]

/-- the selection rules exclude something: `J` too large -/
example : cgCoeff 1 1 1 1 3 2 = 0 := (C22_selection 1 1 1 1 3 2 (by norm_num)).1

end Newt
