import Verif.Model.Pg2Multi
import Verif.Model.ClebschGordan

/-!
# Model of `newt/translations.py` (translation of moments with Clebsch-Gordan coefficients)
-/

namespace Newt

/-- `rP = sqrt(x**2+y**2+z**2)` of the translation vector.  newt/translations.py:35, 96, 157. -/
noncomputable def rPOf (d : V3) : ℝ := Real.sqrt (d 0 ^ 2 + d 1 ^ 2 + d 2 ^ 2)

/-- `phiP = arctan2(y, x)`.  newt/translations.py:38, 99, 158. -/
noncomputable def phiPOf (d : V3) : ℝ := arctan2 (d 1) (d 0)

/-- `thetaP = arccos(z/rP)`.  newt/translations.py:39, 100, 159. -/
noncomputable def thetaPOf (d : V3) : ℝ := Real.arccos (d 2 / rPOf d)

/-- `translate_qlm(qlm, rPrime)`.  newt/translations.py:12-71. -/
noncomputable def translate_qlm {LMax : ℕ} (q : Mom LMax) (d : V3) : Mom LMax :=
  let rP := rPOf d
  if rP = 0 then q
  else
    -- lines 47-50: the conjugated harmonics of the translation vector
    let ylmS : ℕ → ℤ → ℂ := fun l m => (starRingEnd ℂ) (sphHarm m l (phiPOf d) (thetaPOf d))
    -- lines 52-64
    (Mom.ofFn LMax fun L M =>
      if 0 ≤ M ∧ M ≤ L then
        ∑ l ∈ Finset.range (L + 1), ∑ m ∈ Finset.Icc (-(l : ℤ)) l,
          let lP := L - l
          let mP := M - m
          let fac := Real.sqrt (4 * Real.pi *
            Real.exp (gammaln (2 * L + 2) - gammaln (2 * lP + 2 : ℕ) - gammaln (2 * l + 2))) * rP ^ lP
          if |mP| ≤ lP then
            ((fac * cgCoeff lP l mP m L M : ℝ) : ℂ) * ylmS lP mP * q.get l m
          else 0
      else 0).fillNeg

/-- `translate_Qlmb(Qlm, rPrime)`.  newt/translations.py:74-132. -/
noncomputable def translate_Qlmb {LMax : ℕ} (Q : Mom LMax) (d : V3) : Mom LMax :=
  let rP := rPOf d
  if rP = 0 then Q
  else
    let ylmS : ℕ → ℤ → ℂ := fun l m => sphHarm m l (phiPOf d) (thetaPOf d)
    (Mom.ofFn LMax fun L M =>
      if 0 ≤ M ∧ M ≤ L then
        ∑ l ∈ Finset.Icc L LMax, ∑ m ∈ Finset.Icc (-(l : ℤ)) l,
          let lP := l - L
          let mP := M - m
          let fac := Real.sqrt (4 * Real.pi *
            Real.exp (gammaln (2 * l + 1) - gammaln (2 * lP + 2 : ℕ) - gammaln (2 * L + 1))) * rP ^ lP
          if |mP| ≤ lP ∧ lP ≤ LMax then
            ((fac * cgCoeff lP l mP m L M : ℝ) : ℂ) * ylmS lP mP * Q.get l m
          else 0
      else 0).fillNeg

/-- `translate_q2Q(qlm, rPrime)`.  newt/translations.py:135-187.  For a zero vector the division
`rPrime[2]/rP` is 0/0 and every entry that uses it is NaN: `none`. -/
noncomputable def translate_q2Q {LMax : ℕ} (q : Mom LMax) (d : V3) : Option (Mom LMax) :=
  let rP := rPOf d
  if rP = 0 then none
  else
    let ylmS : ℕ → ℤ → ℂ := fun l m => sphHarm m l (phiPOf d) (thetaPOf d)
    some (Mom.ofFn LMax fun L M =>
      if |M| ≤ L then
        ∑ lP ∈ Finset.range (LMax + 1), ∑ mP ∈ Finset.Icc (-(lP : ℤ)) lP,
          let l := L + lP
          let m := M + mP
          let fac := Real.sqrt (4 * Real.pi *
            Real.exp (gammaln (2 * l + 1 : ℕ) - gammaln (2 * lP + 2) - gammaln (2 * L + 1))) / rP ^ (l + 1)
          if |m| ≤ l then
            ((fac * cgCoeff lP l (-mP) m L M * (-1) ^ mP : ℝ) : ℂ) * ylmS l m * q.get lP mP
          else 0
      else 0)

end Newt
