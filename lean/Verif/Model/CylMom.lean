import Verif.Model.Qlm

/-!
# Model of `newt/qlm.py` `cyl_mom` (lines 683-699)
-/

namespace Newt.Qlm

open Finset

/-- `momval[j]`: `PLM22[j] - PLM21[j]`, where `sp.lpmn(L+2, L+2, x)[0][:, -1]` holds the associated Legendre
functions of degree `L+2` and order `j`.  newt/qlm.py:686-692. -/
noncomputable def momval (L : ℕ) (H R : ℝ) (j : ℕ) : ℝ :=
  let R22 := Real.sqrt (R ^ 2 + H ^ 2)
  lpmv j (L + 2) (H / R22) - lpmv j (L + 2) (-H / R22)

/-- `cyl_mom(L, M, dens, H, R)` for `0 <= M` and `R22 != 0`; `none` = `ValueError`.  With `M >= L` the array
`ks` is empty, `momval[-0:]` is all of `momval` and the product cannot be broadcast.  For `M = 0` the
first entry of `fac2` is `0/0` (NaN and a warning), but then the sum is not used.  `momval[-len(ks):]`
starts at the index `M + 3`.  newt/qlm.py:683-699. -/
noncomputable def cylMom (L M : ℕ) (_dens H R : ℝ) : Option ℝ :=
  if L ≤ M then none
  else
    let gamFac := Real.sqrt (Real.exp (gammaln ((L : ℝ) - M + 1) - gammaln ((L : ℝ) + M + 1)))
    let fact := Real.sqrt ((2 * L + 1) / (4 * Real.pi)) * gamFac * spFactorial ((L : ℤ) - M) / (2 * Real.pi)
    let R22 := Real.sqrt (R ^ 2 + H ^ 2)
    if M = 0 then some (fact * R * R22 ^ (L + 2) * momval L H R 1)
    else some (∑ k ∈ range (L - M),
      fact * ((k * 2 + 1 + M) * 2 * M / ((M + 2 * k) * (M + 2 * k + 2))) * R * R22 ^ (L + 2) * momval L H R (M + 3 + k))

end Newt.Qlm
