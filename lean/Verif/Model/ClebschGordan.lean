import Verif.Model.Extern

/-!
# Model of `newt/clebschGordan.py` for integer arguments
-/

namespace Newt

/-- The body of `cgCoeff` after the checks and the sign flip: `fac1*fac2*sumCG`.
newt/clebschGordan.py:58-75. -/
noncomputable def cgBody (j1 j2 m1 m2 J M : ℤ) : ℝ :=
  let kmin := max (max 0 (j2 - m1 - J)) (j1 + m2 - J)
  let kmax := min (min (j1 + j2 - J) (j1 - m1)) (j2 + m2)
  let fac1 := Real.sqrt ((2 * J + 1) * Real.exp
    (gammaln (J + j1 - j2 + 1) + gammaln (J - j1 + j2 + 1)
      + (gammaln (j1 + j2 - J + 1) - gammaln (j1 + j2 + J + 2))))
  let fac2 := Real.sqrt (Real.exp
    (gammaln (J + M + 1) + gammaln (J - M + 1)
      + (gammaln (j1 - m1 + 1) + gammaln (j1 + m1 + 1))
      + (gammaln (j2 - m2 + 1) + gammaln (j2 + m2 + 1))))
  let sumCG := ∑ k ∈ Finset.Icc kmin kmax,
    ((-1 : ℝ) ^ k) / Real.exp
      (gammaln (k + 1) + gammaln (j1 + j2 - J - k + 1)
        + (gammaln (j1 - m1 - k + 1) + gammaln (j2 + m2 - k + 1))
        + (gammaln (J - j2 + m1 + k + 1) + gammaln (J - j1 - m2 + k + 1)))
  fac1 * fac2 * sumCG

/-- `cgCoeff(j1, j2, m1, m2, J, M)`.  newt/clebschGordan.py:11-77. -/
noncomputable def cgCoeff (j1 j2 m1 m2 J M : ℤ) : ℝ :=
  if j1 < |m1| ∨ j2 < |m2| ∨ J < |M| then 0
  else if J > j1 + j2 ∨ J < |j1 - j2| then 0
  else
    let delta : ℝ := if M = m1 + m2 then 1 else 0
    if M < 0 then delta * (-1) ^ (J - j1 - j2) * cgBody j1 j2 (-m1) (-m2) J (-M)
    else delta * cgBody j1 j2 m1 m2 J M

/-- The body of `cgCoeff2`.  newt/clebschGordan.py:127-141. -/
noncomputable def cgBody2 (j1 j2 m1 m2 J M : ℤ) : ℝ :=
  let kmin := max (max 0 (j2 - J - m1)) (j1 - J + m2)
  let kmax := min (min (j1 + j2 - J) (j1 - m1)) (j2 + m2)
  let fac1 := Real.sqrt ((2 * J + 1) * Real.exp
    (gammaln (J + j1 - j2 + 1) + gammaln (J - j1 + j2 + 1)
      + (gammaln (j1 + j2 - J + 1) - gammaln (j1 + j2 + J + 2))))
  let fac2 := Real.sqrt
    (spComb (2 * j1) (j1 - j2 + J) * spComb (2 * j2) (j1 + j2 - J) * spComb (2 * J) (-j1 + j2 + J)
      / (spComb (2 * j1) (j1 + m1) * spComb (2 * j2) (j2 + m2) * spComb (2 * J) (J + M)))
  let sumCG := ∑ k ∈ Finset.Icc kmin kmax,
    spComb (j1 + j2 - J) k * spComb (j1 - j2 + J) (j1 - m1 - k)
      * spComb (-j1 + j2 + J) (j2 + m2 - k) * (-1 : ℝ) ^ k
  fac1 * fac2 * sumCG

/-- `cgCoeff2(j1, j2, m1, m2, J, M)`.  newt/clebschGordan.py:80-143. -/
noncomputable def cgCoeff2 (j1 j2 m1 m2 J M : ℤ) : ℝ :=
  if j1 < |m1| ∨ j2 < |m2| ∨ J < |M| then 0
  else if J > j1 + j2 ∨ J < |j1 - j2| then 0
  else
    let delta : ℝ := if M = m1 + m2 then 1 else 0
    if M < 0 then delta * (-1) ^ (J - j1 - j2) * cgBody2 j1 j2 (-m1) (-m2) J (-M)
    else delta * cgBody2 j1 j2 m1 m2 J M

end Newt
