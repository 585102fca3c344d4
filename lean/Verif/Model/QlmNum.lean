import Verif.Model.Qlm
import Mathlib.MeasureTheory.Integral.IntervalIntegral.Basic

/-!
# Model of `newt/qlmNum.py` and `newt/bigQlmNum.py` (moments by numerical triple integration)

Both files call `scipy.integrate.tplquad`.  It is idealised as the exact iterated integral: the
quadrature error (returned as `err` and only printed by the package) is not modelled.  Everything
else - parameter checks, integration limits and their order, integrands, filling of the array - is
modelled line by line.
-/

namespace Newt

open Finset MeasureTheory

/-- `scipy.integrate.tplquad(func, a, b, gfun, hfun, qfun, rfun)[0]`: the integral of
`func(z, y, x)` for `x` from `a` to `b`, `y` from `gfun(x)` to `hfun(x)`, `z` from `qfun(x, y)` to
`rfun(x, y)`, evaluated exactly. -/
noncomputable def tplquad (f : ℝ → ℝ → ℝ → ℝ) (a b : ℝ) (g h : ℝ → ℝ) (q r : ℝ → ℝ → ℝ) : ℝ :=
  ∫ x in a..b, ∫ y in (g x)..(h x), ∫ z in (q x y)..(r x y), f z y x

namespace QlmNum

open Newt.Qlm (Res fill)

/-- `gfac = np.exp(sp.gammaln(l+m+1) + sp.gammaln(l-m+1))`.
newt/qlmNum.py:18, 37; newt/bigQlmNum.py:19. -/
noncomputable def gfac (l m : ℕ) : ℝ :=
  Real.exp (gammaln ((l : ℝ) + m + 1) + gammaln ((l : ℝ) - m + 1))

/-- `np.exp(gamfac)` with `gamfac = gammaln(m+k+1) + gammaln(k+1) + gammaln(l-m2k+1)`,
`m2k = m+2*k`.  newt/qlmNum.py:22-24, 43-45; newt/bigQlmNum.py:24-26. -/
noncomputable def gamk (l m k : ℕ) : ℝ :=
  Real.exp (gammaln ((m : ℝ) + k + 1) + gammaln ((k : ℝ) + 1)
    + gammaln ((l : ℝ) - ((m : ℝ) + 2 * k) + 1))

/-- The sum `shi` over `k` of the cylindrical integrands:
`(-1)**k*r**(m2k)*z**(l-m2k)/(2**(m2k)*np.exp(gamfac))`.
newt/qlmNum.py:20-25; newt/bigQlmNum.py:22-27. -/
noncomputable def cylShi (l m : ℕ) (z r : ℝ) : ℝ :=
  ∑ k ∈ range ((l - m) / 2 + 1),
    (-1) ^ k * r ^ (m + 2 * k) * z ^ (l - (m + 2 * k)) / (2 ^ (m + 2 * k) * gamk l m k)

/-- `cyl_integrand_qlm(z, r, theta, l, m)`.  newt/qlmNum.py:12-28. -/
noncomputable def cylIntegrand (l m : ℕ) (z r theta : ℝ) : ℝ :=
  (((cylShi l m z r : ℝ) : ℂ) *
    ((-1) ^ m * ((Real.sqrt ((2 * l + 1) * gfac l m / (4 * Real.pi)) : ℝ) : ℂ)
      * Complex.exp (-Complex.I * m * theta) * (r : ℂ))).re

/-- `cart_integrand_qlm_zyx(z, y, x, l, m)`.  newt/qlmNum.py:31-48. -/
noncomputable def cartIntegrand (l m : ℕ) (z y x : ℝ) : ℝ :=
  ((∑ k ∈ range ((l - m) / 2 + 1),
      (-1) ^ k * ((x : ℂ) + Complex.I * y) ^ k * ((x : ℂ) - Complex.I * y) ^ (m + k)
        * (z : ℂ) ^ (l - (m + 2 * k)) / (2 ^ (m + 2 * k) * ((gamk l m k : ℝ) : ℂ))) *
    ((-1) ^ m * ((Real.sqrt ((2 * l + 1) * gfac l m / (4 * Real.pi)) : ℝ) : ℂ))).re

/-- The common tail of every constructor: `qlm[l, m+L] = tplquad(...)`, `qlm *= dens`, then the
`m < 0` block.  newt/qlmNum.py:83, 86-99 and the same lines of the other functions. -/
noncomputable def finish (L : ℕ) (dens : ℝ) (val : ℕ → ℕ → ℝ) : Mom L :=
  fill L fun l m => ((val l m : ℝ) : ℂ) * (dens : ℂ)

open Classical in
/-- `cyl_mom(L, dens, phih, IR, OR, h1, h2)`.  newt/qlmNum.py:51-99. -/
noncomputable def cylMom (L : ℕ) (dens phih IR OR h1 h2 : ℝ) : Res L :=
  if h1 > h2 ∨ OR < IR ∨ phih = 0 ∨ OR ≤ 0 then .valueError
  else .ok (finish L dens fun l m =>
    tplquad (cylIntegrand l m) (-phih) phih (fun _ => IR) (fun _ => OR) (fun _ _ => h1) (fun _ _ => h2))

/-- `cone_z(theta, r)`.  newt/qlmNum.py:134-136; newt/bigQlmNum.py:123-125.  `OR == IR` passes the
parameter checks and divides by zero here (`ZeroDivisionError` with Python floats); the model is
only meant for `IR < OR`. -/
noncomputable def coneZ (H IR OR : ℝ) (_theta r : ℝ) : ℝ := H * (OR - r) / (OR - IR)

open Classical in
/-- `cone_mom(L, dens, phih, IR, OR, H)`.  newt/qlmNum.py:102-153. -/
noncomputable def coneMom (L : ℕ) (dens phih IR OR H : ℝ) : Res L :=
  if H ≤ 0 ∨ OR < IR ∨ phih = 0 ∨ OR ≤ 0 then .valueError
  else .ok (finish L dens fun l m =>
    tplquad (cylIntegrand l m) (-phih) phih (fun _ => IR) (fun _ => OR) (fun _ _ => 0) (coneZ H IR OR))

/-- `trap_or(theta)` / `trap_ir(theta)` for the radius `R`.  newt/qlmNum.py:197-203;
newt/bigQlmNum.py:184-190. -/
noncomputable def trapR (R phih theta : ℝ) : ℝ := R * Real.cos phih / Real.cos theta

open Classical in
/-- `trap_mom(L, dens, phih, IR, OR, h1, h2)`.  newt/qlmNum.py:156-219. -/
noncomputable def trapMom (L : ℕ) (dens phih IR OR h1 h2 : ℝ) : Res L :=
  if h1 > h2 ∨ OR < IR ∨ phih ≤ 0 ∨ OR ≤ 0 then .valueError
  else if phih ≥ Real.pi / 2 then .valueError
  else .ok (finish L dens fun l m =>
    tplquad (cylIntegrand l m) (-phih) phih (trapR IR phih) (trapR OR phih) (fun _ _ => h1) (fun _ _ => h2))

open Classical in
/-- `steinmetz(L, dens, r, R)`.  newt/qlmNum.py:222-279. -/
noncomputable def steinmetz (L : ℕ) (dens r R : ℝ) : Res L :=
  if r ≤ 0 ∨ R < r then .valueError
  else .ok (finish L dens fun l m =>
    tplquad (cartIntegrand l m) (-r) r (fun x => -Real.sqrt (r ^ 2 - x ^ 2)) (fun x => Real.sqrt (r ^ 2 - x ^ 2))
      (fun _ y => -Real.sqrt (R ^ 2 - y ^ 2)) (fun _ y => Real.sqrt (R ^ 2 - y ^ 2)))

open Classical in
/-- `platehole(L, dens, t, r, theta)`.  newt/qlmNum.py:282-344.  When `cos(theta) == 0` (only
possible for `theta <= -pi/2`) the exact tangent is undefined; the model is not meant for it. -/
noncomputable def platehole (L : ℕ) (dens t r theta : ℝ) : Res L :=
  if r ≤ 0 ∨ theta ≥ Real.pi / 2 ∨ t ≤ 0 then .valueError
  else
    let tanth := Real.tan theta
    let h := t / Real.cos theta
    .ok (finish L dens fun l m =>
      tplquad (cartIntegrand l m) (-r) r (fun x => -Real.sqrt (r ^ 2 - x ^ 2)) (fun x => Real.sqrt (r ^ 2 - x ^ 2))
        (fun x _ => x * tanth - h / 2) (fun x _ => x * tanth + h / 2))

end QlmNum

namespace BigQlmNum

open Newt.Qlm (Res fill)
open Newt.QlmNum (gfac cylShi coneZ trapR finish)

/-- `cyl_integrand_Qlmb(z, r, theta, l, m)`.  newt/bigQlmNum.py:13-30. -/
noncomputable def cylIntegrand (l m : ℕ) (z r theta : ℝ) : ℝ :=
  (((cylShi l m z r : ℝ) : ℂ) *
    ((-1) ^ m * ((Real.sqrt ((2 * l + 1) * gfac l m / (4 * Real.pi)) : ℝ) : ℂ)
      * Complex.exp (Complex.I * m * theta)
      / (((r ^ 2 + z ^ 2) ^ (((2 * l + 1 : ℕ) : ℝ) / 2) : ℝ) : ℂ) * (r : ℂ))).re

open Classical in
/-- `annulus(L, dens, h1, h2, IR, OR, phih)`.  newt/bigQlmNum.py:33-84. -/
noncomputable def annulus (L : ℕ) (dens h1 h2 IR OR phih : ℝ) : Res L :=
  if h1 > h2 ∨ OR < IR ∨ phih ≤ 0 ∨ OR ≤ 0 ∨ phih > Real.pi then .valueError
  else if (h1 ≤ 0 ∧ 0 ≤ h2) ∧ IR ≤ 0 then .valueError
  else .ok (finish L dens fun l m =>
    tplquad (cylIntegrand l m) (-phih) phih (fun _ => IR) (fun _ => OR) (fun _ _ => h1) (fun _ _ => h2))

open Classical in
/-- `outer_cone(L, dens, H, IR, OR, phih)`.  newt/bigQlmNum.py:87-140. -/
noncomputable def outerCone (L : ℕ) (dens H IR OR phih : ℝ) : Res L :=
  if H ≤ 0 ∨ OR < IR ∨ phih ≤ 0 ∨ OR ≤ 0 ∨ phih > Real.pi then .valueError
  else .ok (finish L dens fun l m =>
    tplquad (cylIntegrand l m) (-phih) phih (fun _ => IR) (fun _ => OR) (fun _ _ => 0) (coneZ H IR OR))

open Classical in
/-- `trapezoid(L, dens, h1, h2, IR, OR, phih)`.  newt/bigQlmNum.py:143-206. -/
noncomputable def trapezoid (L : ℕ) (dens h1 h2 IR OR phih : ℝ) : Res L :=
  if h1 > h2 ∨ OR < IR ∨ phih ≤ 0 ∨ OR ≤ 0 then .valueError
  else if ((h1 ≤ 0 ∧ 0 ≤ h2) ∧ IR ≤ 0) ∨ phih ≥ Real.pi / 2 then .valueError
  else .ok (finish L dens fun l m =>
    tplquad (cylIntegrand l m) (-phih) phih (trapR IR phih) (trapR OR phih) (fun _ _ => h1) (fun _ _ => h2))

end BigQlmNum

end Newt
