import Verif.Model.QlmACH
import Mathlib.Analysis.SpecialFunctions.OrdinaryHypergeometric
import Mathlib.Analysis.SpecialFunctions.Integrals.Basic

/-!
# Model of `newt/qlmACH.py` `cylhole` and `cylhole2` (closed forms with special functions)
-/

namespace Newt.QlmACH

open Newt.BigQlm (Res)

/-- `scipy.special.ellipe(m)`, the complete elliptic integral of the second kind, by its documented
definition. -/
noncomputable def ellipe (m : ℝ) : ℝ := ∫ t in (0 : ℝ)..(Real.pi / 2), Real.sqrt (1 - m * Real.sin t ^ 2)

/-- `scipy.special.ellipk(m)`, the complete elliptic integral of the first kind, by its documented
definition. -/
noncomputable def ellipk (m : ℝ) : ℝ := ∫ t in (0 : ℝ)..(Real.pi / 2), 1 / Real.sqrt (1 - m * Real.sin t ^ 2)

/-- `scipy.special.hyp2f1(a, b, c, x)`, Gauss's hypergeometric function, by its power series. -/
noncomputable def hyp2f1 (a b c x : ℝ) : ℝ := ordinaryHypergeometric a b c x

/-- `cylhole`: `qlm[0, L+0]`.  newt/qlmACH.py:666. -/
noncomputable def hyp00 (r fac Fc2 : ℝ) : ℝ :=
  fac * r * Fc2

/-- `cylhole`: `qlm[2, L+0]`.  newt/qlmACH.py:667. -/
noncomputable def hyp20 (r R fac Fc2 Fc3 : ℝ) : ℝ :=
  (-fac) * r * Real.sqrt (5) / 6 * ((r ^ 2 - 2 * R ^ 2) * Fc2 + r ^ 2 * Fc3)

/-- `cylhole`: `qlm[2, L+2]`.  newt/qlmACH.py:668. -/
noncomputable def hyp22 (r fac Fc2 : ℝ) : ℝ :=
  fac * r * Real.sqrt (15 / 2) * Fc2

/-- `cylhole`: `qlm[4, L+0]`.  newt/qlmACH.py:669-671. -/
noncomputable def hyp40 (r R fac Fc2 Fc3 Fc4 : ℝ) : ℝ :=
  let q40 : ℝ := (9 * r ^ 5 - 40 * r ^ 3 * R ^ 2 + 24 * r * R ^ 4) * Fc2 + (13 * r ^ 5 - 32 * r ^ 3 * R ^ 2) * Fc3
    + 16 * r ^ 5 * Fc4
  fac / 40 * q40

/-- `cylhole`: `qlm[4, L+2]`.  newt/qlmACH.py:672-673. -/
noncomputable def hyp42 (r R fac Fc2 Fc3 Fc4 : ℝ) : ℝ :=
  let q42 : ℝ := (6 * r ^ 2 - 20 * R ^ 2) * Fc2 + 2 * (r ^ 2 + 10 * R ^ 2) * Fc3 - 13 * r ^ 2 * Fc4
  fac * r ^ 3 * q42 / (8 * Real.sqrt (10))

/-- `cylhole`: `qlm[4, L+4]`.  newt/qlmACH.py:674. -/
noncomputable def hyp44 (r fac Fc2 : ℝ) : ℝ :=
  3 * fac * r * Real.sqrt (35 / 2) * Fc2 / 2

/-- The cells `qlm[l, L+m]`, `m >= 0`, of `cylhole`; all other cells stay `0`.  newt/qlmACH.py:661-674. -/
noncomputable def hypCell (rho r R : ℝ) (l m : ℕ) : ℂ :=
  let fac : ℝ := rho * Real.sqrt (Real.pi) * r * R
  let x : ℝ := (r / R) ^ 2
  let Fc2 : ℝ := hyp2f1 (-(1 / 2)) ((1 / 2)) (2) (x)
  let Fc3 : ℝ := hyp2f1 (-(1 / 2)) ((3 / 2)) (3) (x)
  let Fc4 : ℝ := hyp2f1 (-(1 / 2)) ((5 / 2)) (4) (x)
  match l, m with
  | 0, 0 => ((hyp00 r fac Fc2 : ℝ) : ℂ)
  | 2, 0 => ((hyp20 r R fac Fc2 Fc3 : ℝ) : ℂ)
  | 2, 2 => ((hyp22 r fac Fc2 : ℝ) : ℂ)
  | 4, 0 => ((hyp40 r R fac Fc2 Fc3 Fc4 : ℝ) : ℂ)
  | 4, 2 => ((hyp42 r R fac Fc2 Fc3 Fc4 : ℝ) : ℂ)
  | 4, 4 => ((hyp44 r fac Fc2 : ℝ) : ℂ)
  | _, _ => 0

open Classical in
/-- `cylhole(LMax, rho, r, R)`.  newt/qlmACH.py:631-685. -/
noncomputable def cylhole (LMax : ℕ) (rho r R : ℝ) : Res LMax :=
  if r ≤ 0 ∨ R < r then .valueError
  else .ok (table LMax (hypCell rho r R))

/-- `cylhole2`: `qlm[0, L+0]`.  newt/qlmACH.py:726. -/
noncomputable def ell00 (rho R k Ek Kk : ℝ) : ℝ :=
  rho * 4 / 3 * R ^ 3 * ((1 + k ^ 2) * Ek - (1 - k ^ 2) * Kk) / Real.sqrt (Real.pi)

/-- `cylhole2`: `qlm[2, L+0]`.  newt/qlmACH.py:727-728. -/
noncomputable def ell20 (rho R k Ek Kk : ℝ) : ℝ :=
  rho * 2 * R ^ 5 / (9 * Real.sqrt (5 * Real.pi)) * ((2 + 13 * k ^ 2 - 13 * k ^ 4) * Ek - (1 - k ^ 2) * (2 - k ^ 2)
    * Kk)

/-- `cylhole2`: `qlm[2, L+2]`.  newt/qlmACH.py:729-730. -/
noncomputable def ell22 (rho R k Ek Kk : ℝ) : ℝ :=
  let q22 : ℝ := (8 - 13 * k ^ 2 + 3 * k ^ 4) * Ek - (1 - k ^ 2) * (8 - 9 * k ^ 2) * Kk
  rho * q22 * R ^ 5 * Real.sqrt (2 / (15 * Real.pi)) / 3

/-- `cylhole2`: `qlm[4, L+0]`.  newt/qlmACH.py:731-733. -/
noncomputable def ell40 (rho R k Ek Kk : ℝ) : ℝ :=
  let q40 : ℝ := (24 + 440 * k ^ 2 - 1415 * k ^ 4 + 689 * k ^ 6) * Ek - (1 - k ^ 2) * (24 + 32 * k ^ 2 - 187 * k ^ 4)
    * Kk
  rho * R ^ 7 / (350 * Real.sqrt (Real.pi)) * q40

/-- `cylhole2`: `qlm[4, L+2]`.  newt/qlmACH.py:734-736. -/
noncomputable def ell42 (rho R k Ek Kk : ℝ) : ℝ :=
  let q42 : ℝ := (48 - 198 * k ^ 2 + 173 * k ^ 4 - 85 * k ^ 6) * Ek - (1 - k ^ 2) * (48 - 174 * k ^ 2 + 95 * k ^ 4)
    * Kk
  rho * q42 * R ^ 7 / (35 * Real.sqrt (10 * Real.pi))

/-- `cylhole2`: `qlm[4, L+4]`.  newt/qlmACH.py:737-739. -/
noncomputable def ell44 (rho R k Ek Kk : ℝ) : ℝ :=
  let q44 : ℝ := (128 - 248 * k ^ 2 + 123 * k ^ 4 - 5 * k ^ 6) * Ek - (1 - k ^ 2) * (128 - 184 * k ^ 2 + 55 * k ^ 4)
    * Kk
  rho * q44 * R ^ 7 / (10 * Real.sqrt (70 * Real.pi))

/-- The cells `qlm[l, L+m]`, `m >= 0`, of `cylhole2`; all other cells stay `0`.  newt/qlmACH.py:719-739. -/
noncomputable def ellCell (rho r R : ℝ) (l m : ℕ) : ℂ :=
  let k : ℝ := r / R
  let Ek : ℝ := if k = 1 then 1 else ellipe (k ^ 2)
  let Kk : ℝ := if k = 1 then 0 else ellipk (k ^ 2)
  match l, m with
  | 0, 0 => ((ell00 rho R k Ek Kk : ℝ) : ℂ)
  | 2, 0 => ((ell20 rho R k Ek Kk : ℝ) : ℂ)
  | 2, 2 => ((ell22 rho R k Ek Kk : ℝ) : ℂ)
  | 4, 0 => ((ell40 rho R k Ek Kk : ℝ) : ℂ)
  | 4, 2 => ((ell42 rho R k Ek Kk : ℝ) : ℂ)
  | 4, 4 => ((ell44 rho R k Ek Kk : ℝ) : ℂ)
  | _, _ => 0

open Classical in
/-- `cylhole2(LMax, rho, r, R)`.  newt/qlmACH.py:688-750. -/
noncomputable def cylhole2 (LMax : ℕ) (rho r R : ℝ) : Res LMax :=
  if r ≤ 0 ∨ R < r then .valueError
  else .ok (table LMax (ellCell rho r R))

end Newt.QlmACH
