import Verif.Model.Moments
import Verif.Model.Extern
import Mathlib.Analysis.SpecialFunctions.Trigonometric.Basic

/-!
# Model of `newt/qlm.py` (inner multipole moments of uniform solids)

Floats are exact reals.  Each constructor checks its parameters, fills the cells `[l, L+m]`,
`0 <= m <= l`, of a zero array (`+=` over the inner index `k`, then `*=` by a factor that depends
on `(l,m)` only) and ends with the block modelled by `Mom.fillNeg`.
-/

namespace Newt.Qlm

open Finset

/-- Outcome of a constructor of `newt/qlm.py`: `ValueError`, an array all of whose cells are NaN
(a division of the whole array by zero), or a proper array. -/
inductive Res (L : ℕ) where
  | valueError
  | nan
  | ok (q : Mom L)

/-- `np.sinc(x/np.pi)`, i.e. `sin(x)/x`, and `1` at `0`. -/
noncomputable def sinc (x : ℝ) : ℝ := if x = 0 then 1 else Real.sin x / x

/-- `qlm = zeros; qlm[l, L+m] = val(l, m) for 0 <= m <= l`, then the closing block
`qlm += conj(fliplr(qlm))*(-1)**abs(ms); qlm[:, L] /= 2`.
newt/qlm.py:107, 128-133 (annulus) and the same lines of the other constructors. -/
noncomputable def fill (L : ℕ) (val : ℕ → ℕ → ℂ) : Mom L :=
  (Mom.ofFn L fun l m => if 0 ≤ m ∧ m ≤ l then val l m.toNat else 0).fillNeg

/-- `factor = mass*np.sqrt(1/(4.*np.pi))`.  newt/qlm.py:62, 106, 215, 276, 340, 401, 463
(162, 643: three times this; 524, 584: six times this). -/
noncomputable def factor (mass : ℝ) : ℝ := mass * Real.sqrt (1 / (4 * Real.pi))

/-- `np.sqrt(np.exp(sp.gammaln(l+m+1)+sp.gammaln(l-m+1)))`.
newt/qlm.py:114, 169, 223, 285, 348, 410, 471, 532, 592, 652. -/
noncomputable def lmfac (l m : ℕ) : ℝ :=
  Real.sqrt (Real.exp (gammaln ((l : ℝ) + m + 1) + gammaln ((l : ℝ) - m + 1)))

/-- `np.exp(gamsum)` with `gamsum = gammaln(k+1) + gammaln(m+k+1) + gammaln(l-m-2*k+2)`.
newt/qlm.py:119-120, 228-229, 290-291, 352-353, 413-414, 476-477. -/
noncomputable def gam3 (l m k : ℕ) : ℝ :=
  Real.exp (gammaln ((k : ℝ) + 1) + gammaln ((m : ℝ) + k + 1) + gammaln ((l : ℝ) - m - 2 * k + 2))

/-- `np.exp(-1j*m*phic)`.  newt/qlm.py:115, 170, 224, 286, 411, 472. -/
noncomputable def phase (m : ℕ) (phic : ℝ) : ℂ := Complex.exp (-Complex.I * m * phic)

/-- `sphere(L, mass, R)`.  newt/qlm.py:11-34. -/
noncomputable def sphere (L : ℕ) (mass _R : ℝ) : Mom L :=
  Mom.ofFn L fun l m => if l = 0 ∧ m = 0 then ((mass / Real.sqrt (4 * Real.pi) : ℝ) : ℂ) else 0

/-- The column `Slk[l, 0]` of `cylinder` for `l = 2 n`:
`Slk[l, 0] = (l-1)*H**2/(4.0*(l+1))*Slk[l-2, 0]`, `Slk[0, 0] = 1`.  newt/qlm.py:64, 70. -/
noncomputable def slk0 (H : ℝ) : ℕ → ℝ
  | 0 => 1
  | n + 1 => (((2 * (n + 1) : ℕ) : ℝ) - 1) * H ^ 2 / (4 * (((2 * (n + 1) : ℕ) : ℝ) + 1)) * slk0 H n

/-- `Slk[l, k] = -Slk[l, k-1]*(l-2*k+3)*(l-2*k+2)/((k+1)*k)*(R/H)**2` for `l = 2 n`.
newt/qlm.py:71-72. -/
noncomputable def slk (H R : ℝ) (n : ℕ) : ℕ → ℝ
  | 0 => slk0 H n
  | k + 1 => -slk H R n k * (((2 * n : ℕ) : ℝ) - 2 * ((k : ℝ) + 1) + 3)
      * (((2 * n : ℕ) : ℝ) - 2 * ((k : ℝ) + 1) + 2) / (((k : ℝ) + 1 + 1) * ((k : ℝ) + 1)) * (R / H) ^ 2

open Classical in
/-- `cylinder(L, mass, H, R)`.  newt/qlm.py:37-74.  Only the cells `[l, L]` with `l` even are
written; `np.sum(Slk[l])` runs over the `L//2+1` entries of the row, of which those with
`k > l/2` are still zero. -/
noncomputable def cylinder (L : ℕ) (mass H R : ℝ) : Res L :=
  if H ≤ 0 ∨ R ≤ 0 then .valueError
  else .ok (Mom.ofFn L fun l m =>
    if m = 0 ∧ l = 0 then ((factor mass * 1 : ℝ) : ℂ)
    else if m = 0 ∧ l % 2 = 0 then
      ((factor mass * Real.sqrt (2 * l + 1) *
        ∑ k ∈ range (L / 2 + 1), (if k ≤ l / 2 then slk H R (l / 2) k else 0) : ℝ) : ℂ)
    else 0)

/-- The cell `[l, L+m]` of `annulus` before the division by `rfac`.  newt/qlm.py:111-125. -/
noncomputable def annulusCell (mass H Ri Ro phic phih : ℝ) (l m : ℕ) : ℂ :=
  if (l - m) % 2 = 0 then
    (∑ k ∈ range ((l - m) / 2 + 1),
      (((-1) ^ (k + m) * H ^ (l - 2 * k - m) / ((2 : ℝ) ^ ((l : ℤ) - 1) * (2 * k + m + 2))
        * ((Ro ^ (2 * k + m + 2) - Ri ^ (2 * k + m + 2)) / gam3 l m k) : ℝ) : ℂ))
    * (((factor mass * Real.sqrt (2 * l + 1) * lmfac l m : ℝ) : ℂ)
        * (((sinc (m * phih) : ℝ) : ℂ) * phase m phic))
  else 0

open Classical in
/-- `annulus(L, mass, H, Ri, Ro, phic, phih)`.  newt/qlm.py:77-133.  `Ro == Ri` passes the
parameter check and `qlm /= rfac` divides every cell (including the zero ones) by zero. -/
noncomputable def annulus (L : ℕ) (mass H Ri Ro phic phih : ℝ) : Res L :=
  if H ≤ 0 ∨ Ro < Ri ∨ phih ≤ 0 ∨ Real.pi < phih ∨ Ri < 0 then .valueError
  else
    let rfac := Ro ^ 2 - Ri ^ 2
    if rfac = 0 then .nan
    else .ok (fill L fun l m => annulusCell mass H Ri Ro phic phih l m / ((rfac : ℝ) : ℂ))

/-- The cell `[l, L+m]` of `cone`.  newt/qlm.py:166-178. -/
noncomputable def coneCell (mass P R phic phih : ℝ) (l m : ℕ) : ℂ :=
  (∑ k ∈ range ((l - m) / 2 + 1),
    (((-1) ^ (k + m) * P ^ (l - 2 * k - m) * R ^ (2 * k + m) / (2 : ℝ) ^ ((2 * k + m : ℤ) - 1)
      * Real.exp (gammaln (2 * k + m + 2) - (gammaln ((k : ℝ) + 1) + gammaln ((m : ℝ) + k + 1))) : ℝ) : ℂ))
  * (((3 * factor mass * Real.sqrt (2 * l + 1) / Real.exp (gammaln ((l : ℝ) + 4)) * lmfac l m : ℝ) : ℂ)
      * (((sinc (m * phih) : ℝ) : ℂ) * phase m phic))

open Classical in
/-- `cone(L, mass, P, R, phic, phih)`.  newt/qlm.py:136-184. -/
noncomputable def cone (L : ℕ) (mass P R phic phih : ℝ) : Res L :=
  if P ≤ 0 ∨ R ≤ 0 ∨ phih ≤ 0 ∨ Real.pi < phih then .valueError
  else .ok (fill L (coneCell mass P R phic phih))

/-- `psum` of `tri_iso_prism`/`tri_iso_prism2`: the double sum over `p` and `j` with slope `t`
(`aod` resp. `a`).  newt/qlm.py:231-237, 293-299. -/
noncomputable def isoPsum (t : ℝ) (m k : ℕ) : ℝ :=
  ∑ p ∈ range (m / 2 + 1), (-1) ^ p * spComb m (2 * p : ℕ) *
    ∑ j ∈ range (k + 1), spComb k j * t ^ (2 * j + 2 * p) / (2 * j + 2 * p + 1)

/-- The cell `[l, L+m]` of `tri_iso_prism`/`tri_iso_prism2`.  newt/qlm.py:220-241, 282-303. -/
noncomputable def isoCell (mass H d t phic : ℝ) (l m : ℕ) : ℂ :=
  if (l - m) % 2 = 0 then
    (∑ k ∈ range ((l - m) / 2 + 1),
      (((-1) ^ (k + m) * H ^ (l - 2 * k - m) * d ^ (2 * k + m) / (2 * k + m + 2)
        * (isoPsum t m k / gam3 l m k) : ℝ) : ℂ))
    * (((factor mass * Real.sqrt (2 * l + 1) / (2 : ℝ) ^ ((l : ℤ) - 1) * lmfac l m : ℝ) : ℂ)
        * phase m phic)
  else 0

open Classical in
/-- `tri_iso_prism(L, mass, H, a, d, phic)`.  newt/qlm.py:187-247. -/
noncomputable def triIsoPrism (L : ℕ) (mass H a d phic : ℝ) : Res L :=
  if H ≤ 0 ∨ d = 0 ∨ a ≤ 0 then .valueError
  else .ok (fill L (isoCell mass H d (a / (2 * d)) phic))

open Classical in
/-- `tri_iso_prism2(L, mass, H, R, phic, phih)`.  newt/qlm.py:250-309.  At `phih = pi/2` the exact
tangent is undefined (the float one is about `1.6e16`); the model is only meant for
`phih < pi/2`. -/
noncomputable def triIsoPrism2 (L : ℕ) (mass H R phic phih : ℝ) : Res L :=
  if H ≤ 0 ∨ R ≤ 0 ∨ phih ≤ 0 ∨ Real.pi / 2 < phih then .valueError
  else .ok (fill L (isoCell mass H (R * Real.cos phih) (Real.tan phih) phic))

/-- `psum` of `tri_prism`.  newt/qlm.py:355-363. -/
noncomputable def triPsum (d y1 y2 : ℝ) (m k : ℕ) : ℂ :=
  ∑ p ∈ range (m + k + 1), ((spComb (m + k : ℕ) p : ℝ) : ℂ) *
    ∑ j ∈ range (k + 1), ((spComb k j : ℝ) : ℂ) *
      (Complex.I ^ (p + j) * (-1) ^ p * ((y2 ^ (p + j + 1) - y1 ^ (p + j + 1) : ℝ) : ℂ))
      * ((d ^ (-((p + j : ℕ) : ℤ)) : ℝ) : ℂ) / (p + j + 1)

/-- The cell `[l, L+m]` of `tri_prism`.  newt/qlm.py:345-367. -/
noncomputable def triCell (mass H d y1 y2 : ℝ) (l m : ℕ) : ℂ :=
  if (l - m) % 2 = 0 then
    (∑ k ∈ range ((l - m) / 2 + 1),
      (((-1) ^ (k + m) * H ^ (l - 2 * k - m) * d ^ (2 * k + m) / (2 * k + m + 2) : ℝ) : ℂ)
        * (triPsum d y1 y2 m k / ((gam3 l m k : ℝ) : ℂ)))
    * ((factor mass * Real.sqrt (2 * l + 1) / (2 : ℝ) ^ ((l : ℤ) - 1) * lmfac l m / (y2 - y1) : ℝ) : ℂ)
  else 0

open Classical in
/-- `tri_prism(L, mass, H, d, y1, y2)`.  newt/qlm.py:312-373. -/
noncomputable def triPrism (L : ℕ) (mass H d y1 y2 : ℝ) : Res L :=
  if H ≤ 0 ∨ d = 0 ∨ y1 = y2 then .valueError
  else .ok (fill L (triCell mass H d y1 y2))

/-- `psum` of `rect_prism`.  newt/qlm.py:416-425. -/
noncomputable def rectPsum (a b : ℝ) (m k : ℕ) : ℝ :=
  ∑ p ∈ range (m / 2 + 1), (-1) ^ p * spComb m (2 * p : ℕ) *
    ∑ j ∈ range (k + 1), spComb k j *
      (a ^ (2 * k + m - (2 * j + 2 * p)) * b ^ (2 * j + 2 * p)
        + (-1) ^ (m / 2) * b ^ (2 * k + m - (2 * j + 2 * p)) * a ^ (2 * j + 2 * p))
      / (((2 * j + 2 * p : ℕ) : ℝ) + 1)

/-- The cell `[l, L+m]` of `rect_prism` (`l` and `m` run over even values only).
newt/qlm.py:406-429. -/
noncomputable def rectCell (mass H a b phic : ℝ) (l m : ℕ) : ℂ :=
  if l % 2 = 0 ∧ m % 2 = 0 then
    (∑ k ∈ range ((l - m) / 2 + 1),
      (((-1) ^ k * H ^ (l - 2 * k - m) / ((2 * k + m + 2) * 2 ^ (l + 2 * k + m))
        * (rectPsum a b m k / gam3 l m k) : ℝ) : ℂ))
    * (((factor mass * Real.sqrt (2 * l + 1) * lmfac l m : ℝ) : ℂ) * phase m phic)
  else 0

open Classical in
/-- `rect_prism(L, mass, H, a, b, phic)`.  newt/qlm.py:376-435. -/
noncomputable def rectPrism (L : ℕ) (mass H a b phic : ℝ) : Res L :=
  if H ≤ 0 ∨ b ≤ 0 ∨ a ≤ 0 then .valueError
  else .ok (fill L (rectCell mass H a b phic))

/-- `psum` of `ngon_prism`.  newt/qlm.py:480-487. -/
noncomputable def ngonPsum (tanN : ℝ) (m k : ℕ) : ℝ :=
  ∑ p ∈ range (m / 2 + 1), (-1) ^ p * spComb m (2 * p : ℕ) *
    ∑ j ∈ range (k + 1), spComb k j *
      tanN ^ (((2 * j + 2 * p : ℕ) : ℤ) - 2 * k - m) / (((2 * j + 2 * p : ℕ) : ℝ) + 1)

/-- The cell `[l, L+m]` of `ngon_prism` (`m` runs over multiples of `N`).  newt/qlm.py:468-491. -/
noncomputable def ngonCell (mass H a phic : ℝ) (N : ℕ) (l m : ℕ) : ℂ :=
  if m % N = 0 ∧ (l - m) % 2 = 0 then
    (∑ k ∈ range ((l - m) / 2 + 1),
      (((-1) ^ (k + m) * H ^ (l - 2 * k - m) * a ^ (2 * k + m)
        / ((2 * k + m + 2) * (2 : ℝ) ^ ((l + 2 * k + m : ℤ) - 1))
        * (ngonPsum (Real.tan (Real.pi / N)) m k / gam3 l m k) : ℝ) : ℂ))
    * (((factor mass * Real.sqrt (2 * l + 1) * lmfac l m : ℝ) : ℂ) * phase m phic)
  else 0

open Classical in
/-- `ngon_prism(L, mass, H, a, phic, N)`.  newt/qlm.py:438-497.  `N` is a natural number; `N = 1`
and `N = 2` (no polygon) make `tan(pi/N)` degenerate and are not meant by the model. -/
noncomputable def ngonPrism (L : ℕ) (mass H a phic : ℝ) (N : ℕ) : Res L :=
  if H ≤ 0 ∨ a ≤ 0 ∨ N ≤ 0 then .valueError
  else .ok (fill L (ngonCell mass H a phic N))

/-- `psum` of `tetrahedron`.  newt/qlm.py:536-546. -/
noncomputable def tetPsum (x y : ℝ) (m k : ℕ) : ℂ :=
  ∑ p ∈ range (m + k + 1), ∑ j ∈ range (k + 1),
    (Complex.I ^ (p + j) * (-1) ^ p * ((y ^ (p + j) * x ^ (m + 2 * k - (p + j)) : ℝ) : ℂ))
    * ((Real.exp (gammaln ((m : ℝ) + 2 * k - (p + j) + 1) + gammaln ((p : ℝ) + j + 1)
        - (gammaln ((j : ℝ) + 1) + gammaln ((k : ℝ) - j + 1))
        - (gammaln ((p : ℝ) + 1) + gammaln ((m : ℝ) + k - p + 1))) : ℝ) : ℂ)

/-- The cell `[l, L+m]` of `tetrahedron`.  newt/qlm.py:529-550. -/
noncomputable def tetCell (mass x y z : ℝ) (l m : ℕ) : ℂ :=
  (∑ k ∈ range ((l - m) / 2 + 1),
    (((-1) ^ (m + k) * z ^ (l - (m + 2 * k)) / 2 ^ (m + 2 * k) : ℝ) : ℂ) * tetPsum x y m k)
  * ((6 * factor mass * Real.sqrt (2 * l + 1) / Real.exp (gammaln ((l : ℝ) + 4)) * lmfac l m : ℝ) : ℂ)

open Classical in
/-- `tetrahedron(L, mass, x, y, z)`.  newt/qlm.py:500-556. -/
noncomputable def tetrahedron (L : ℕ) (mass x y z : ℝ) : Res L :=
  if x ≤ 0 ∨ y ≤ 0 ∨ z ≤ 0 then .valueError
  else .ok (fill L (tetCell mass x y z))

/-- `psum` of `tetrahedron2`.  newt/qlm.py:596-606. -/
noncomputable def tet2Psum (x y1 y2 : ℝ) (m k : ℕ) : ℂ :=
  ∑ p ∈ range (m + k + 1), ∑ j ∈ range (k + 1),
    (Complex.I ^ (p + j) * (-1) ^ p * ((y2 ^ (p + j + 1) - y1 ^ (p + j + 1) : ℝ) : ℂ)
      * ((x ^ (m + 2 * k - (p + j)) : ℝ) : ℂ))
    * ((Real.exp (gammaln ((m : ℝ) + 2 * k + 2)
        - (gammaln ((j : ℝ) + 1) + gammaln ((k : ℝ) - j + 1))
        - (gammaln ((p : ℝ) + 1) + gammaln ((m : ℝ) + k - p + 1))) : ℝ) : ℂ) / (p + j + 1)

/-- The cell `[l, L+m]` of `tetrahedron2`.  newt/qlm.py:589-610. -/
noncomputable def tet2Cell (mass x y1 y2 z : ℝ) (l m : ℕ) : ℂ :=
  (∑ k ∈ range ((l - m) / 2 + 1),
    (((-1) ^ (m + k) * z ^ (l - (m + 2 * k)) / 2 ^ (m + 2 * k) : ℝ) : ℂ) * tet2Psum x y1 y2 m k)
  * ((6 * factor mass * Real.sqrt (2 * l + 1) / Real.exp (gammaln ((l : ℝ) + 4)) / (y2 - y1)
      * lmfac l m : ℝ) : ℂ)

open Classical in
/-- `tetrahedron2(L, mass, x, y1, y2, z)`.  newt/qlm.py:559-616. -/
noncomputable def tetrahedron2 (L : ℕ) (mass x y1 y2 z : ℝ) : Res L :=
  if x ≤ 0 ∨ y1 = y2 ∨ z ≤ 0 then .valueError
  else .ok (fill L (tet2Cell mass x y1 y2 z))

/-- `psum` of `pyramid`.  newt/qlm.py:656-670. -/
noncomputable def pyrPsum (x y : ℝ) (m k : ℕ) : ℂ :=
  ∑ p ∈ range (m + k + 1), ∑ j ∈ range (k + 1),
    if (p + j) % 2 = 0 then
      ((y ^ (p + j) * x ^ (m + 2 * k - (p + j))
          + (-1) ^ (m / 2) * x ^ (p + j) * y ^ (m + 2 * k - (p + j)) : ℝ) : ℂ)
        * (Complex.I ^ (p + j) * (-1) ^ p)
        * ((Real.exp (gammaln ((m : ℝ) + 2 * k + 2)
            - (gammaln ((j : ℝ) + 1) + gammaln ((k : ℝ) - j + 1))
            - (gammaln ((p : ℝ) + 1) + gammaln ((m : ℝ) + k - p + 1))) : ℝ) : ℂ) / (p + j + 1)
    else 0

/-- The cell `[l, L+m]` of `pyramid` (`m` even only).  newt/qlm.py:648-674. -/
noncomputable def pyrCell (mass x y z : ℝ) (l m : ℕ) : ℂ :=
  if m % 2 = 0 then
    (∑ k ∈ range ((l - m) / 2 + 1),
      (((-1) ^ (m + k) * z ^ (l - (m + 2 * k)) / 2 ^ (m + 2 * k) : ℝ) : ℂ) * pyrPsum x y m k)
    * ((3 * factor mass * Real.sqrt (2 * l + 1) / Real.exp (gammaln ((l : ℝ) + 4)) * lmfac l m : ℝ) : ℂ)
  else 0

open Classical in
/-- `pyramid(L, mass, x, y, z)`.  newt/qlm.py:619-680. -/
noncomputable def pyramid (L : ℕ) (mass x y z : ℝ) : Res L :=
  if x ≤ 0 ∨ y ≤ 0 ∨ z ≤ 0 then .valueError
  else .ok (fill L (pyrCell mass x y z))

end Newt.Qlm
