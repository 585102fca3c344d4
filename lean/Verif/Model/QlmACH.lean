import Verif.Model.BigQlm

/-!
# Model of `newt/qlmACH.py` (closed-form inner moments up to degree 5)

Generated from the source text: every cell is the expression the code assigns to it, with augmented
assignments (`+=`, `-=`, `*=`, `/=`) written as one expression.
-/

namespace Newt.QlmACH

open Newt.Qlm (fill)
open Newt.BigQlm (Res)

/-- The common tail of every constructor: the array is built for `L = max(LMax, 5)`, the cells with
`m < 0` are filled in from those with `m > 0`, and the array is cut down if `LMax < 5`.
newt/qlmACH.py:35-39, 52-61 (and the same lines of every other constructor). -/
noncomputable def table (LMax : ℕ) (val : ℕ → ℕ → ℂ) : Mom LMax :=
  let L := if LMax < 5 then 5 else LMax
  let q : Mom L := fill L val
  Mom.ofFn LMax fun l m => q.get l m

/-- `rect_prism`: `qlm[0, L+0]`.  newt/qlmACH.py:45. -/
noncomputable def rect00 (q00 : ℝ) : ℝ :=
  q00

/-- `rect_prism`: `qlm[2, L+0]`.  newt/qlmACH.py:46. -/
noncomputable def rect20 (z q00 r2 : ℝ) : ℝ :=
  (-q00) * Real.sqrt (5) * (r2 - 2 * z ^ 2) / 24

/-- `rect_prism`: `qlm[2, L+2]`.  newt/qlmACH.py:47. -/
noncomputable def rect22 (q00 d2 : ℝ) : ℝ :=
  q00 * Real.sqrt (5 / 6) * d2 / 8

/-- `rect_prism`: `qlm[4, L+0]`.  newt/qlmACH.py:48. -/
noncomputable def rect40 (x y z q00 r2 : ℝ) : ℝ :=
  q00 * (9 * x ^ 4 + 10 * x ^ 2 * y ^ 2 + 9 * y ^ 4 - 40 * r2 * z ^ 2 + 24 * z ^ 4) / 640

/-- `rect_prism`: `qlm[4, L+2]`.  newt/qlmACH.py:49. -/
noncomputable def rect42 (z q00 r2 d2 : ℝ) : ℝ :=
  (-q00) * d2 * (3 * r2 - 10 * z ^ 2) / (64 * Real.sqrt (10))

/-- `rect_prism`: `qlm[4, L+4]`.  newt/qlmACH.py:50. -/
noncomputable def rect44 (x y q00 : ℝ) : ℝ :=
  q00 * Real.sqrt (7 / 10) * (3 * x ^ 4 - 10 * x ^ 2 * y ^ 2 + 3 * y ^ 4) / 128

/-- The cells `qlm[l, L+m]`, `m >= 0`, of `rect_prism`; all other cells stay `0`.  newt/qlmACH.py:42-50. -/
noncomputable def rectCell (rho x y z : ℝ) (l m : ℕ) : ℂ :=
  let q00 : ℝ := rho * x * y * z / Real.sqrt (4 * Real.pi)
  let r2 : ℝ := x ^ 2 + y ^ 2
  let d2 : ℝ := x ^ 2 - y ^ 2
  match l, m with
  | 0, 0 => ((rect00 q00 : ℝ) : ℂ)
  | 2, 0 => ((rect20 z q00 r2 : ℝ) : ℂ)
  | 2, 2 => ((rect22 q00 d2 : ℝ) : ℂ)
  | 4, 0 => ((rect40 x y z q00 r2 : ℝ) : ℂ)
  | 4, 2 => ((rect42 z q00 r2 d2 : ℝ) : ℂ)
  | 4, 4 => ((rect44 x y q00 : ℝ) : ℂ)
  | _, _ => 0

open Classical in
/-- `rect_prism(LMax, rho, x, y, z)`.  newt/qlmACH.py:11-61. -/
noncomputable def rectPrism (LMax : ℕ) (rho x y z : ℝ) : Res LMax :=
  if x ≤ 0 ∨ y ≤ 0 ∨ z ≤ 0 then .valueError
  else .ok (table LMax (rectCell rho x y z))

/-- `annulus`: `qlm[0, L+0]`.  newt/qlmACH.py:106. -/
noncomputable def ann00 (rho H dphi dr r : ℝ) : ℝ :=
  rho * H * r * dphi * dr / Real.sqrt (4 * Real.pi)

/-- `annulus`: `qlm[1, L+1]`.  newt/qlmACH.py:107-108. -/
noncomputable def ann11 (rho H dr r sdphih : ℝ) (eiphi : ℂ) : ℂ :=
  (-rho) / (4 * Real.sqrt (6 * Real.pi)) * eiphi * (H * dr * (dr ^ 2 + 12 * r ^ 2) * sdphih)

/-- `annulus`: `qlm[2, L+0]`.  newt/qlmACH.py:109-110. -/
noncomputable def ann20 (rho H dphi dr r : ℝ) : ℝ :=
  (-rho) * Real.sqrt (5 / Real.pi) * H * r * dphi * dr * (3 * dr ^ 2 - 2 * H ^ 2 + 12 * r ^ 2) / 48

/-- `annulus`: `qlm[2, L+2]`.  newt/qlmACH.py:111-112. -/
noncomputable def ann22 (rho H dphi dr r : ℝ) (eiphi : ℂ) : ℂ :=
  rho * Real.sqrt (15 / (2 * Real.pi)) * eiphi ^ 2 * H * r * dr * ((dr ^ 2 + 4 * r ^ 2) * Real.sin (dphi) / 16)

/-- `annulus`: `qlm[3, L+1]`.  newt/qlmACH.py:113-114. -/
noncomputable def ann31 (rho H dr r sdphih : ℝ) (eiphi : ℂ) : ℂ :=
  rho * Real.sqrt (7 / (3 * Real.pi)) * eiphi * H * dr * sdphih / 960 * (9 * dr ^ 4 - 20 * dr ^ 2 * (H ^ 2 - 18
    * r ^ 2) - 240 * r ^ 2 * (H ^ 2 - 3 * r ^ 2))

/-- `annulus`: `qlm[3, L+3]`.  newt/qlmACH.py:115-116. -/
noncomputable def ann33 (rho H dr r sdphi3h : ℝ) (eiphi : ℂ) : ℂ :=
  (-rho) * Real.sqrt (7 / (5 * Real.pi)) * eiphi ^ 3 * H * dr / 192 * ((dr ^ 4 + 40 * dr ^ 2 * r ^ 2 + 80 * r ^ 4)
    * sdphi3h)

/-- `annulus`: `qlm[4, L+0]`.  newt/qlmACH.py:117-119. -/
noncomputable def ann40 (rho H dphi dr r : ℝ) : ℝ :=
  let q40 : ℝ := 15 * dr ^ 4 - 40 * dr ^ 2 * (H ^ 2 - 5 * r ^ 2) + 8 * (H ^ 4 - 20 * H ^ 2 * r ^ 2 + 30 * r ^ 4)
  3 * rho / Real.sqrt (Real.pi) * H * r * dphi * dr / 1280 * q40

/-- `annulus`: `qlm[4, L+2]`.  newt/qlmACH.py:120-121. -/
noncomputable def ann42 (rho H dphi dr r : ℝ) (eiphi : ℂ) : ℂ :=
  (-rho) * Real.sqrt (5 / (2 * Real.pi)) * eiphi ^ 2 * H * r * dr * Real.sin (dphi) / 128 * (3 * dr ^ 4 - 24 * r ^ 2
    * (H ^ 2 - 2 * r ^ 2) + dr ^ 2 * ((-6) * H ^ 2 + 40 * r ^ 2))

/-- `annulus`: `qlm[4, L+4]`.  newt/qlmACH.py:122-123. -/
noncomputable def ann44 (rho H dphi dr r : ℝ) (eiphi : ℂ) : ℂ :=
  rho * Real.sqrt (35 / (2 * Real.pi)) * eiphi ^ 4 * H * r * dr * Real.sin (2 * dphi) / 512 * (3 * dr ^ 4 + 40
    * dr ^ 2 * r ^ 2 + 48 * r ^ 4)

/-- `annulus`: `qlm[5, L+1]`.  newt/qlmACH.py:124-128. -/
noncomputable def ann51 (rho H dr r sdphih : ℝ) (eiphi : ℂ) : ℂ :=
  let q51 : ℝ := 15 * dr ^ 6 - 84 * dr ^ 4 * (H ^ 2 - 15 * r ^ 2) + 672 * r ^ 2 * (H ^ 4 - 10 * H ^ 2 * r ^ 2 + 10
    * r ^ 4) + 56 * dr ^ 2 * (H ^ 4 - 60 * H ^ 2 * r ^ 2 + 150 * r ^ 4)
  (-rho) * Real.sqrt (11 / (30 * Real.pi)) * eiphi * H * dr * sdphih / 3584 * q51

/-- `annulus`: `qlm[5, L+3]`.  newt/qlmACH.py:129-132. -/
noncomputable def ann53 (rho H dr r sdphi3h : ℝ) (eiphi : ℂ) : ℂ :=
  let q53 : ℝ := 15 * dr ^ 6 - 56 * dr ^ 4 * H ^ 2 + 140 * dr ^ 2 * (9 * dr ^ 2 - 16 * H ^ 2) * r ^ 2 + (560 * (15
    * dr ^ 2 - 8 * H ^ 2) * r ^ 4 + 6720 * r ^ 6)
  rho * Real.sqrt (11 / (35 * Real.pi)) * eiphi ^ 3 * H * dr * sdphi3h / 9216 * q53

/-- `annulus`: `qlm[5, L+5]`.  newt/qlmACH.py:133-135. -/
noncomputable def ann55 (rho H dphi dr r : ℝ) (eiphi : ℂ) : ℂ :=
  let q55 : ℝ := dr ^ 6 + 84 * dr ^ 4 * r ^ 2 + 560 * dr ^ 2 * r ^ 4 + 448 * r ^ 6
  (-3) * rho * Real.sqrt (11 / (7 * Real.pi)) * eiphi ^ 5 * H * dr * Real.sin (dphi * 5 / 2) * (q55 / 5120)

/-- The cells `qlm[l, L+m]`, `m >= 0`, of `annulus`; all other cells stay `0`.  newt/qlmACH.py:97-135. -/
noncomputable def annCell (rho H Ri Ro phic phih : ℝ) (l m : ℕ) : ℂ :=
  let dphi : ℝ := phih * 2
  let dr : ℝ := Ro - Ri
  let r : ℝ := (Ro + Ri) / 2
  let eiphi : ℂ := Complex.exp ((-Complex.I) * phic)
  let sdphih : ℝ := Real.sin (dphi / 2)
  let sdphi3h : ℝ := Real.sin (dphi * 3 / 2)
  match l, m with
  | 0, 0 => ((ann00 rho H dphi dr r : ℝ) : ℂ)
  | 1, 1 => ann11 rho H dr r sdphih eiphi
  | 2, 0 => ((ann20 rho H dphi dr r : ℝ) : ℂ)
  | 2, 2 => ann22 rho H dphi dr r eiphi
  | 3, 1 => ann31 rho H dr r sdphih eiphi
  | 3, 3 => ann33 rho H dr r sdphi3h eiphi
  | 4, 0 => ((ann40 rho H dphi dr r : ℝ) : ℂ)
  | 4, 2 => ann42 rho H dphi dr r eiphi
  | 4, 4 => ann44 rho H dphi dr r eiphi
  | 5, 1 => ann51 rho H dr r sdphih eiphi
  | 5, 3 => ann53 rho H dr r sdphi3h eiphi
  | 5, 5 => ann55 rho H dphi dr r eiphi
  | _, _ => 0

open Classical in
/-- `annulus(LMax, rho, H, Ri, Ro, phic, phih)`.  newt/qlmACH.py:64-146. -/
noncomputable def annulus (LMax : ℕ) (rho H Ri Ro phic phih : ℝ) : Res LMax :=
  if Ro ≤ Ri ∨ Ro ≤ 0 ∨ H ≤ 0 ∨ phih > Real.pi ∨ phih ≤ 0 then .valueError
  else .ok (table LMax (annCell rho H Ri Ro phic phih))

/-- `cone`: `qlm[0, L+0]`.  newt/qlmACH.py:182. -/
noncomputable def con00 (h r1 r2 fac : ℝ) : ℝ :=
  fac * h * (r1 ^ 2 + r1 * r2 + r2 ^ 2) / 6

/-- `cone`: `qlm[1, L+0]`.  newt/qlmACH.py:185. -/
noncomputable def con10 (h r1 r2 fac : ℝ) : ℝ :=
  fac * h ^ 2 * (r1 - r2) * (r1 + r2) / (8 * Real.sqrt (3))

/-- `cone`: `qlm[2, L+0]`.  newt/qlmACH.py:188-190. -/
noncomputable def con20 (h r1 r2 fac : ℝ) : ℝ :=
  let q20 : ℝ := h ^ 2 * (2 * r1 ^ 2 + r1 * r2 + 2 * r2 ^ 2) - 3 * (r1 ^ 4 + r1 ^ 3 * r2 + r1 ^ 2 * r2 ^ 2 + r1
    * r2 ^ 3 + r2 ^ 4)
  fac * h * q20 / (24 * Real.sqrt (5))

/-- `cone`: `qlm[3, L+0]`.  newt/qlmACH.py:194-195. -/
noncomputable def con30 (h r1 r2 fac : ℝ) : ℝ :=
  let q3 : ℝ := (r1 ^ 2 - r2 ^ 2) * (h ^ 2 - 2 * (2 * r1 ^ 2 + r1 * r2 + 2 * r2 ^ 2))
  fac * h ^ 2 * q3 * Real.sqrt (7) / 160

/-- `cone`: `qlm[4, L+0]`.  newt/qlmACH.py:201-205. -/
noncomputable def con40 (h r1 r2 fac : ℝ) : ℝ :=
  let q4 : ℝ := h ^ 4 * (3 * r1 ^ 2 + r1 * r2 + 3 * r2 ^ 2) - 2 * h ^ 2 * (11 * r1 ^ 4 + 5 * r1 ^ 3 * r2 + 3 * r1 ^ 2
    * r2 ^ 2 + 5 * r1 * r2 ^ 3 + 11 * r2 ^ 4) + 10 * (r1 ^ 6 + r1 ^ 5 * r2 + r1 ^ 4 * r2 ^ 2 + r1 ^ 3 * r2 ^ 3)
    + 10 * (r2 ^ 6 + r2 ^ 5 * r1 + r2 ^ 4 * r1 ^ 2)
  fac * 3 * h * q4 / 1120

/-- `cone`: `qlm[5, L+0]`.  newt/qlmACH.py:212-214. -/
noncomputable def con50 (h r1 r2 fac : ℝ) : ℝ :=
  let q5 : ℝ := h ^ 4 - 4 * h ^ 2 * (3 * r1 ^ 2 + r1 * r2 + 3 * r2 ^ 2) + 5 * (3 * r1 ^ 4 + 2 * r1 ^ 2 * r2 + 4
    * r1 ^ 2 * r2 ^ 2 + 2 * r1 * r2 ^ 3 + 3 * r2 ^ 4)
  fac * q5 * h ^ 2 * (r1 ^ 2 - r2 ^ 2) * Real.sqrt (11) / 896

/-- The cells `qlm[l, L+m]`, `m >= 0`, of `cone`; all other cells stay `0`.  newt/qlmACH.py:181-214. -/
noncomputable def conCell (rho h r1 r2 : ℝ) (l m : ℕ) : ℂ :=
  let fac : ℝ := rho * Real.sqrt (Real.pi)
  match l, m with
  | 0, 0 => ((con00 h r1 r2 fac : ℝ) : ℂ)
  | 1, 0 => ((con10 h r1 r2 fac : ℝ) : ℂ)
  | 2, 0 => ((con20 h r1 r2 fac : ℝ) : ℂ)
  | 3, 0 => ((con30 h r1 r2 fac : ℝ) : ℂ)
  | 4, 0 => ((con40 h r1 r2 fac : ℝ) : ℂ)
  | 5, 0 => ((con50 h r1 r2 fac : ℝ) : ℂ)
  | _, _ => 0

open Classical in
/-- `cone(LMax, rho, h, r1, r2)`.  newt/qlmACH.py:149-225. -/
noncomputable def cone (LMax : ℕ) (rho h r1 r2 : ℝ) : Res LMax :=
  if h ≤ 0 ∨ (r1 = 0 ∧ r2 = 0) then .valueError
  else .ok (table LMax (conCell rho h r1 r2))

/-- `cone2`: `qlm[0, L+0]`.  newt/qlmACH.py:260. -/
noncomputable def conTwo00 (h r1 r2 fac : ℝ) : ℝ :=
  fac * h * (r1 ^ 2 + r1 * r2 + r2 ^ 2) / 6

/-- `cone2`: `qlm[1, L+0]`.  newt/qlmACH.py:261. -/
noncomputable def conTwo10 (h r1 r2 fac : ℝ) : ℝ :=
  fac * h ^ 2 * (r1 ^ 2 + 2 * r1 * r2 + 3 * r2 ^ 2) / (8 * Real.sqrt (3))

/-- `cone2`: `qlm[2, L+0]`.  newt/qlmACH.py:262-264. -/
noncomputable def conTwo20 (h r1 r2 fac : ℝ) : ℝ :=
  let q20 : ℝ := 2 * h ^ 2 * (r1 ^ 2 + 3 * r1 * r2 + 6 * r2 ^ 2) - 3 * (r1 ^ 4 + 2 * r1 ^ 3 * r2 + 3 * r1 ^ 2 * r2 ^ 2
    + r1 * r2 ^ 3 + r2 ^ 4)
  fac * h * q20 / (24 * Real.sqrt (5))

/-- `cone2`: `qlm[3, L+0]`.  newt/qlmACH.py:265-267. -/
noncomputable def conTwo30 (h r1 r2 fac : ℝ) : ℝ :=
  let q3 : ℝ := 2 * h ^ 2 * (r1 ^ 2 + 4 * r1 * r2 + 10 * r2 ^ 2) - 3 * (r1 ^ 4 + 2 * r1 ^ 3 * r2 + 3 * r1 ^ 2 * r2 ^ 2
    + 4 * r1 * r2 ^ 3 + 5 * r2 ^ 4)
  fac * h ^ 2 * q3 * Real.sqrt (7) / 240

/-- `cone2`: `qlm[4, L+0]`.  newt/qlmACH.py:268-272. -/
noncomputable def conTwo40 (h r1 r2 fac : ℝ) : ℝ :=
  let q4 : ℝ := 8 * h ^ 4 * (r1 ^ 2 + 5 * r1 * r2 + 15 * r2 ^ 2) - 12 * h ^ 2 * (r1 ^ 4 + 3 * r1 ^ 3 * r2 + 6 * r1 ^ 2
    * r2 ^ 2 + 10 * r1 * r2 ^ 3 + 15 * r2 ^ 4) + 15 * (r1 ^ 6 + r1 ^ 5 * r2 + r1 ^ 4 * r2 ^ 2 + r1 ^ 3 * r2 ^ 3
    + r1 ^ 2 * r2 ^ 4) + 15 * (r1 * r2 ^ 5 + r2 ^ 6)
  fac * q4 * h / 560

/-- `cone2`: `qlm[5, L+0]`.  newt/qlmACH.py:273-278. -/
noncomputable def conTwo50 (h r1 r2 fac : ℝ) : ℝ :=
  let q5 : ℝ := 8 * h ^ 4 * (r1 ^ 2 + 6 * r1 * r2 + 21 * r2 ^ 2) - 12 * h ^ 2 * (r1 ^ 4 + 4 * r1 ^ 3 * r2 + 10
    * r1 ^ 2 * r2 ^ 2 + 20 * r1 * r2 ^ 3) - 12 * h ^ 2 * (35 * r2 ^ 4) + 15 * (r1 ^ 6 + 2 * r1 ^ 5 * r2 + 3 * r1 ^ 4
    * r2 ^ 2 + 4 * r1 ^ 3 * r2 ^ 3) + 15 * (5 * r1 ^ 2 * r2 ^ 4 + 6 * r1 * r2 ^ 5 + 7 * r2 ^ 6)
  fac * h ^ 2 * q5 * Real.sqrt (11) / 2688

/-- The cells `qlm[l, L+m]`, `m >= 0`, of `cone2`; all other cells stay `0`.  newt/qlmACH.py:259-278. -/
noncomputable def conTwoCell (rho h r1 r2 : ℝ) (l m : ℕ) : ℂ :=
  let fac : ℝ := rho * Real.sqrt (Real.pi)
  match l, m with
  | 0, 0 => ((conTwo00 h r1 r2 fac : ℝ) : ℂ)
  | 1, 0 => ((conTwo10 h r1 r2 fac : ℝ) : ℂ)
  | 2, 0 => ((conTwo20 h r1 r2 fac : ℝ) : ℂ)
  | 3, 0 => ((conTwo30 h r1 r2 fac : ℝ) : ℂ)
  | 4, 0 => ((conTwo40 h r1 r2 fac : ℝ) : ℂ)
  | 5, 0 => ((conTwo50 h r1 r2 fac : ℝ) : ℂ)
  | _, _ => 0

open Classical in
/-- `cone2(LMax, rho, h, r1, r2)`.  newt/qlmACH.py:228-289. -/
noncomputable def cone2 (LMax : ℕ) (rho h r1 r2 : ℝ) : Res LMax :=
  if h ≤ 0 ∨ (r1 = 0 ∧ r2 = 0) then .valueError
  else .ok (table LMax (conTwoCell rho h r1 r2))

/-- `tri_prism`: `qlm[0, L+0]`.  newt/qlmACH.py:330. -/
noncomputable def tri00 (q00 : ℝ) : ℝ :=
  q00

/-- `tri_prism`: `qlm[1, L+1]`.  newt/qlmACH.py:331. -/
noncomputable def tri11 (d y1 y2 q00 : ℝ) : ℂ :=
  q00 * ((-2) * d + Complex.I * (y1 + y2)) / Real.sqrt (6)

/-- `tri_prism`: `qlm[2, L+0]`.  newt/qlmACH.py:332. -/
noncomputable def tri20 (h d y2p q00 : ℝ) : ℝ :=
  (-q00) * Real.sqrt (5) * (3 * d ^ 2 - h ^ 2 + y2p) / 12

/-- `tri_prism`: `qlm[2, L+2]`.  newt/qlmACH.py:333-334. -/
noncomputable def tri22 (d y1 y2 y2p q00 : ℝ) : ℂ :=
  let q22 : ℂ := 3 * d ^ 2 - y2p - (3 * Complex.I) * d * (y1 + y2)
  q00 * q22 * Real.sqrt (5 / 6) / 4

/-- `tri_prism`: `qlm[3, L+1]`.  newt/qlmACH.py:335-337. -/
noncomputable def tri31 (h d y1 y2 y2p q00 : ℝ) : ℂ :=
  let q31 : ℂ := 36 * d ^ 3 - (18 * Complex.I) * d ^ 2 * (y1 + y2) + Complex.I * (y1 + y2) * (10 * h ^ 2 - 9 * (y1 ^ 2
    + y2 ^ 2)) - 4 * d * (5 * h ^ 2 - 3 * y2p)
  q00 * q31 * Real.sqrt (7 / 3) / 120

/-- `tri_prism`: `qlm[3, L+3]`.  newt/qlmACH.py:338-339. -/
noncomputable def tri33 (d y1 y2 q00 : ℝ) : ℂ :=
  let q33 : ℂ := ((1 + Complex.I) * d + y1 - Complex.I * y2) * ((1 + Complex.I) * d - Complex.I * y1 + y2) * ((2
    * Complex.I) * d + y1 + y2)
  q00 * q33 * Real.sqrt (7 / 5) / 8

/-- `tri_prism`: `qlm[4, L+0]`.  newt/qlmACH.py:340-343. -/
noncomputable def tri40 (h d y1 y2 y2p q00 : ℝ) : ℝ :=
  let q40 : ℝ := 30 * d ^ 4 + 3 * h ^ 4 - 10 * h ^ 2 * y2p + 6 * (y1 ^ 4 + y1 ^ 3 * y2 + y1 ^ 2 * y2 ^ 2 + y1 * y2 ^ 3
    + y2 ^ 4) + 10 * d ^ 2 * ((-3) * h ^ 2 + 2 * y2p)
  q00 * q40 / 80

/-- `tri_prism`: `qlm[4, L+2]`.  newt/qlmACH.py:344-346. -/
noncomputable def tri42 (h d y1 y2 y2p y4p q00 : ℝ) : ℂ :=
  let q42 : ℂ := 20 * d ^ 4 - 15 * d ^ 2 * h ^ 2 - (20 * Complex.I) * d ^ 3 * (y1 + y2) + (5 * h ^ 2 * y2p + (5
    * Complex.I) * d * (y1 + y2) * (3 * h ^ 2 - 2 * (y1 ^ 2 + y2 ^ 2)) - 4 * y4p)
  (-q00) * q42 / (16 * Real.sqrt (10))

/-- `tri_prism`: `qlm[4, L+4]`.  newt/qlmACH.py:347-350. -/
noncomputable def tri44 (d y1 y2 y2p q00 : ℝ) : ℂ :=
  let q44 : ℂ := 5 * d ^ 4 + y1 ^ 4 + y1 ^ 3 * y2 + y1 ^ 2 * y2 ^ 2 + y1 * y2 ^ 3 + y2 ^ 4 + ((-(10 * Complex.I))
    * d ^ 3 * (y1 + y2) + (5 * Complex.I) * d * (y1 + y2) * (y1 ^ 2 + y2 ^ 2)) - 10 * d ^ 2 * y2p
  q00 * q44 * Real.sqrt (7 / 10) / 8

/-- `tri_prism`: `qlm[5, L+1]`.  newt/qlmACH.py:351-355. -/
noncomputable def tri51 (h d y1 y2 y2p y4p y5p q00 : ℝ) : ℂ :=
  let q51 : ℂ := 60 * d ^ 5 - (30 * Complex.I) * d ^ 4 * (y1 + y2) + (6 * Complex.I) * d ^ 2 * (y1 + y2) * (7 * h ^ 2
    - 5 * (y1 ^ 2 + y2 ^ 2)) - 4 * d ^ 3 * (21 * h ^ 2 - 10 * y2p) + 2 * d * (7 * h ^ 4 - 14 * h ^ 2 * y2p + 6
    * y4p) - Complex.I * (7 * h ^ 4 * (y1 + y2) - 21 * h ^ 2 * (y1 ^ 3 + y1 ^ 2 * y2 + y1 * y2 ^ 2 + y2 ^ 3) + 10
    * y5p)
  (-q00) * q51 * Real.sqrt (11 / 30) / 112

/-- `tri_prism`: `qlm[5, L+3]`.  newt/qlmACH.py:356-360. -/
noncomputable def tri53 (h d y1 y2 y2p y4p q00 : ℝ) : ℂ :=
  let q53 : ℂ := 30 * d ^ 5 - (45 * Complex.I) * d ^ 4 * (y1 + y2) + (3 * Complex.I) * d ^ 2 * (y1 + y2) * (14
    * h ^ 2 - 5 * (y1 ^ 2 + y2 ^ 2)) - 4 * d ^ 3 * (7 * h ^ 2 + 5 * y2p) - Complex.I * (y1 + y2) * (7 * h ^ 2 * (y1 ^ 2
    + y2 ^ 2) - 5 * (y1 ^ 4 + y1 ^ 2 * y2 ^ 2 + y2 ^ 4)) + d * (28 * h ^ 2 * y2p - 18 * y4p)
  q00 * q53 * Real.sqrt (11 / 35) / 48

/-- `tri_prism`: `qlm[5, L+5]`.  newt/qlmACH.py:361-363. -/
noncomputable def tri55 (d y1 y2 y2p q00 : ℝ) : ℂ :=
  let q55 : ℂ := ((-2) * d + Complex.I * (y1 + y2)) * (d ^ 2 - y1 ^ 2 + y1 * y2 - y2 ^ 2 - Complex.I * d * (y1
    + y2)) * (3 * d ^ 2 - y2p - (3 * Complex.I) * d * (y1 + y2))
  q00 * q55 * Real.sqrt (11 / 7) / 16

/-- The cells `qlm[l, L+m]`, `m >= 0`, of `tri_prism`; all other cells stay `0`.  newt/qlmACH.py:326-363. -/
noncomputable def triCell (rho h d y1 y2 : ℝ) (l m : ℕ) : ℂ :=
  let y2p : ℝ := y1 ^ 2 + y1 * y2 + y2 ^ 2
  let y4p : ℝ := y1 ^ 4 + y1 ^ 3 * y2 + y1 ^ 2 * y2 ^ 2 + y1 * y2 ^ 3 + y2 ^ 4
  let y5p : ℝ := y1 ^ 5 + y1 ^ 4 * y2 + y1 ^ 3 * y2 ^ 2 + y1 ^ 2 * y2 ^ 3 + y1 * y2 ^ 4 + y2 ^ 5
  let q00 : ℝ := rho * h * |d * (y1 - y2)| / (4 * Real.sqrt (Real.pi))
  match l, m with
  | 0, 0 => ((tri00 q00 : ℝ) : ℂ)
  | 1, 1 => tri11 d y1 y2 q00
  | 2, 0 => ((tri20 h d y2p q00 : ℝ) : ℂ)
  | 2, 2 => tri22 d y1 y2 y2p q00
  | 3, 1 => tri31 h d y1 y2 y2p q00
  | 3, 3 => tri33 d y1 y2 q00
  | 4, 0 => ((tri40 h d y1 y2 y2p q00 : ℝ) : ℂ)
  | 4, 2 => tri42 h d y1 y2 y2p y4p q00
  | 4, 4 => tri44 d y1 y2 y2p q00
  | 5, 1 => tri51 h d y1 y2 y2p y4p y5p q00
  | 5, 3 => tri53 h d y1 y2 y2p y4p q00
  | 5, 5 => tri55 d y1 y2 y2p q00
  | _, _ => 0

open Classical in
/-- `tri_prism(LMax, rho, h, d, y1, y2)`.  newt/qlmACH.py:292-374. -/
noncomputable def triPrism (LMax : ℕ) (rho h d y1 y2 : ℝ) : Res LMax :=
  if h ≤ 0 ∨ d = 0 ∨ y1 = y2 then .valueError
  else .ok (table LMax (triCell rho h d y1 y2))

/-- `trapezoid`: `qlm[0, L+0]`.  newt/qlmACH.py:415. -/
noncomputable def trap00 (q00 : ℝ) : ℝ :=
  q00

/-- `trapezoid`: `qlm[1, L+1]`.  newt/qlmACH.py:416. -/
noncomputable def trap11 (h delw q00 : ℝ) : ℝ :=
  q00 * h * (delw - 6) / (4 * Real.sqrt (6))

/-- `trapezoid`: `qlm[2, L+0]`.  newt/qlmACH.py:417-418. -/
noncomputable def trap20 (t h w delw q00 : ℝ) : ℝ :=
  let q20 : ℝ := q00 * (4 * delw * h ^ 2 - delw ^ 2 * w ^ 2 - 4 * (4 * h ^ 2 - 2 * t ^ 2 + w ^ 2))
  q20 * Real.sqrt (5) / 96

/-- `trapezoid`: `qlm[2, L+2]`.  newt/qlmACH.py:419-420. -/
noncomputable def trap22 (h w delw q00 : ℝ) : ℝ :=
  let q22 : ℝ := (-q00) * (4 * delw * h ^ 2 + delw ^ 2 * w ^ 2 - 4 * (4 * h ^ 2 - w ^ 2))
  q22 * Real.sqrt (5 / 6) / 32

/-- `trapezoid`: `qlm[3, L+1]`.  newt/qlmACH.py:421-424. -/
noncomputable def trap31 (t h w delw q00 : ℝ) : ℝ :=
  let q31 : ℝ := (3 * delw ^ 3 * w ^ 2 - 30 * delw ^ 2 * w ^ 2 - 120 * (6 * h ^ 2 - 4 * t ^ 2 + w ^ 2) + 4 * delw
    * (54 * h ^ 2 - 20 * t ^ 2 + 15 * w ^ 2)) * ((-q00) * Real.sqrt (7 / 3) * h / 3840)
  q31

/-- `trapezoid`: `qlm[3, L+3]`.  newt/qlmACH.py:425-428. -/
noncomputable def trap33 (h w delw q00 : ℝ) : ℝ :=
  let q33 : ℝ := ((-delw ^ 3) * w ^ 2 + 10 * delw ^ 2 * w ^ 2 + 4 * delw * (6 * h ^ 2 - 5 * w ^ 2) - 40 * (2 * h ^ 2
    - w ^ 2)) * (q00 * Real.sqrt (7 / 5) * h / 256)
  q33

/-- `trapezoid`: `qlm[4, L+0]`.  newt/qlmACH.py:429-434. -/
noncomputable def trap40 (t h w delw q00 : ℝ) : ℝ :=
  let q40 : ℝ := ((-24) * delw ^ 3 * w ^ 2 * h ^ 2 + 9 * delw ^ 4 * w ^ 4 - 32 * delw * h ^ 2 * (24 * h ^ 2 - 20
    * t ^ 2 + 15 * w ^ 2) + 8 * delw ^ 2 * w ^ 2 * (24 * h ^ 2 - 20 * t ^ 2 + 15 * w ^ 2) + 16 * (144 * h ^ 4 + 24
    * t ^ 4 - 40 * t ^ 2 * w ^ 2 + 9 * w ^ 4 - 40 * h ^ 2 * (4 * t ^ 2 - w ^ 2))) * (q00 / 10240)
  q40

/-- `trapezoid`: `qlm[4, L+2]`.  newt/qlmACH.py:435-439. -/
noncomputable def trap42 (t h w delw q00 : ℝ) : ℝ :=
  let q42 : ℝ := (32 * delw * (8 * h ^ 4 - 5 * h ^ 2 * t ^ 2) + 3 * delw ^ 4 * w ^ 4 - 40 * delw ^ 2 * w ^ 2 * (t ^ 2
    - w ^ 2) - 16 * (4 * h ^ 2 - w ^ 2) * (12 * h ^ 2 - 10 * t ^ 2 + 3 * w ^ 2)) * (q00 / 1024 / Real.sqrt (10))
  q42

/-- `trapezoid`: `qlm[4, L+4]`.  newt/qlmACH.py:440-444. -/
noncomputable def trap44 (h w delw q00 : ℝ) : ℝ :=
  let q44 : ℝ := (24 * delw ^ 3 * w ^ 2 * h ^ 2 + 3 * delw ^ 4 * w ^ 4 - delw * (256 * h ^ 4 - 480 * h ^ 2 * w ^ 2)
    - (delw ^ 2 * w ^ 2 * (192 * h ^ 2 - 40 * w ^ 2) + 16 * (48 * h ^ 4 - 40 * h ^ 2 * w ^ 2 + 3 * w ^ 4))) * (q00
    * Real.sqrt (7 / 10) / 2048)
  q44

/-- `trapezoid`: `qlm[5, L+1]`.  newt/qlmACH.py:445-452. -/
noncomputable def trap51 (t h w delw q00 : ℝ) : ℝ :=
  let q51 : ℝ := (3 * delw ^ 5 * w ^ 4 - 42 * delw ^ 4 * w ^ 4 + 8 * delw ^ 3 * w ^ 2 * (26 * h ^ 2 - 14 * t ^ 2
    + 21 * w ^ 2) - 224 * (80 * h ^ 4 + 24 * t ^ 4 - 20 * t ^ 2 * w ^ 2 + 3 * w ^ 4 - 20 * h ^ 2 * (6 * t ^ 2 - w ^ 2))
    - 112 * delw ^ 2 * w ^ 2 * (14 * h ^ 2 - 5 * (2 * t ^ 2 - w ^ 2)) + 16 * delw * (400 * h ^ 4 - 252 * h ^ 2
    * (2 * t ^ 2 - w ^ 2)) + 16 * delw * (7 * (8 * t ^ 4 - 20 * t ^ 2 * w ^ 2 + 5 * w ^ 4))) * (q00 * h * Real.sqrt (11
    / 30) / 57344)
  q51

/-- `trapezoid`: `qlm[5, L+3]`.  newt/qlmACH.py:453-459. -/
noncomputable def trap53 (t h w delw q00 : ℝ) : ℝ :=
  let q53 : ℝ := ((-9) * delw ^ 5 * w ^ 4 + 126 * delw ^ 4 * w ^ 4 + 112 * delw ^ 2 * w ^ 2 * (14 * h ^ 2 - 20
    * t ^ 2 + 15 * w ^ 2) - 8 * delw ^ 3 * w ^ 2 * (26 * h ^ 2 - 28 * t ^ 2 + 63 * w ^ 2) - 224 * (80 * h ^ 4 + 40
    * t ^ 2 * w ^ 2 - 9 * w ^ 4 - 20 * h ^ 2 * (4 * t ^ 2 + w ^ 2)) + 16 * delw * (400 * h ^ 4 - 84 * h ^ 2 * (4
    * t ^ 2 + 3 * w ^ 2) + 35 * (8 * t ^ 2 * w ^ 2 - 3 * w ^ 4))) * ((-q00) * h * Real.sqrt (11 / 35) / 49152)
  q53

/-- `trapezoid`: `qlm[5, L+5]`.  newt/qlmACH.py:460-465. -/
noncomputable def trap55 (h w delw q00 : ℝ) : ℝ :=
  let q55 : ℝ := (3 * delw ^ 5 * w ^ 4 - 42 * delw ^ 4 * w ^ 4 - delw ^ 3 * w ^ 2 * (208 * h ^ 2 - 168 * w ^ 2)
    + 112 * delw ^ 2 * w ^ 2 * (14 * h ^ 2 - 5 * w ^ 2) + 16 * delw * (80 * h ^ 4 - 252 * h ^ 2 * w ^ 2 + 35 * w ^ 4)
    - 224 * (16 * h ^ 4 - 20 * h ^ 2 * w ^ 2 + 3 * w ^ 4)) * (q00 * h * Real.sqrt (11 / 7) / 16384)
  q55

/-- The cells `qlm[l, L+m]`, `m >= 0`, of `trapezoid`; all other cells stay `0`.  newt/qlmACH.py:412-465. -/
noncomputable def trapCell (rho t w1 w2 h : ℝ) (l m : ℕ) : ℂ :=
  let w : ℝ := (w1 + w2) / 2
  let delw : ℝ := (w1 - w2) / w
  let q00 : ℝ := rho * h * t * w / Real.sqrt (4 * Real.pi)
  match l, m with
  | 0, 0 => ((trap00 q00 : ℝ) : ℂ)
  | 1, 1 => ((trap11 h delw q00 : ℝ) : ℂ)
  | 2, 0 => ((trap20 t h w delw q00 : ℝ) : ℂ)
  | 2, 2 => ((trap22 h w delw q00 : ℝ) : ℂ)
  | 3, 1 => ((trap31 t h w delw q00 : ℝ) : ℂ)
  | 3, 3 => ((trap33 h w delw q00 : ℝ) : ℂ)
  | 4, 0 => ((trap40 t h w delw q00 : ℝ) : ℂ)
  | 4, 2 => ((trap42 t h w delw q00 : ℝ) : ℂ)
  | 4, 4 => ((trap44 h w delw q00 : ℝ) : ℂ)
  | 5, 1 => ((trap51 t h w delw q00 : ℝ) : ℂ)
  | 5, 3 => ((trap53 t h w delw q00 : ℝ) : ℂ)
  | 5, 5 => ((trap55 h w delw q00 : ℝ) : ℂ)
  | _, _ => 0

open Classical in
/-- `trapezoid(LMax, rho, t, w1, w2, h)`.  newt/qlmACH.py:377-476. -/
noncomputable def trapezoid (LMax : ℕ) (rho t w1 w2 h : ℝ) : Res LMax :=
  if h ≤ 0 ∨ t ≤ 0 ∨ w1 < 0 ∨ w2 < 0 then .valueError
  else if (w1 + w2) / 2 = 0 then .zeroDivision
  else .ok (table LMax (trapCell rho t w1 w2 h))

/-- `cylindrical_section`: `qlm[0, L+0]`.  newt/qlmACH.py:513. -/
noncomputable def seg00 (rho t r d s acdr : ℝ) : ℝ :=
  rho * t * r * (r * acdr - s * d) / Real.sqrt (4 * Real.pi)

/-- `cylindrical_section`: `qlm[1, L+1]`.  newt/qlmACH.py:514. -/
noncomputable def seg11 (rho t r s r2d2 : ℝ) : ℝ :=
  (-rho) * s * t * r * r2d2 / Real.sqrt (6 * Real.pi)

/-- `cylindrical_section`: `qlm[2, L+0]`.  newt/qlmACH.py:515-517. -/
noncomputable def seg20 (rho t r d s acdr : ℝ) : ℝ :=
  let q20 : ℝ := t * r * (s * d * (2 * d ^ 2 - t ^ 2 + r ^ 2) + r * (t ^ 2 - 3 * r ^ 2) * acdr) * (rho * Real.sqrt (5
    / Real.pi) / 24)
  q20

/-- `cylindrical_section`: `qlm[2, L+2]`.  newt/qlmACH.py:518. -/
noncomputable def seg22 (rho t r d s r2d2 : ℝ) : ℝ :=
  rho * Real.sqrt (5 / 6 / Real.pi) * s * d * t * r * r2d2 / 2

/-- `cylindrical_section`: `qlm[3, L+1]`.  newt/qlmACH.py:519. -/
noncomputable def seg31 (rho t r d s r2d2 : ℝ) : ℝ :=
  rho * s * t * r * r2d2 * (6 * d ^ 2 - 5 * t ^ 2 + 9 * r ^ 2) * Real.sqrt (7 / 3 / Real.pi) / 60

/-- `cylindrical_section`: `qlm[3, L+3]`.  newt/qlmACH.py:520. -/
noncomputable def seg33 (rho t r d s r2d2 : ℝ) : ℝ :=
  rho * s * t * r * r2d2 * (r ^ 2 - 6 * d ^ 2) * Real.sqrt (7 / 5 / Real.pi) / 12

/-- `cylindrical_section`: `qlm[4, L+0]`.  newt/qlmACH.py:521-524. -/
noncomputable def seg40 (rho t r d s acdr : ℝ) : ℝ :=
  let q40 : ℝ := ((-s) * d * (16 * d ^ 4 - 20 * d ^ 2 * t ^ 2 + 3 * t ^ 4 + 2 * (4 * d ^ 2 - 5 * t ^ 2) * r ^ 2
    + 6 * r ^ 4) + 3 * r * (t ^ 4 - 10 * t ^ 2 * r ^ 2 + 10 * r ^ 4) * acdr) * (rho * t * r / Real.sqrt (Real.pi)
    / 160)
  q40

/-- `cylindrical_section`: `qlm[4, L+2]`.  newt/qlmACH.py:525-526. -/
noncomputable def seg42 (rho t r d s r2d2 : ℝ) : ℝ :=
  let q42 : ℝ := (-rho) * s * d * t * r * r2d2 * (4 * d ^ 2 - 5 * t ^ 2 + 6 * r ^ 2) / (8 * Real.sqrt (10 * Real.pi))
  q42

/-- `cylindrical_section`: `qlm[4, L+4]`.  newt/qlmACH.py:527. -/
noncomputable def seg44 (rho t r d s r2d2 : ℝ) : ℝ :=
  (-rho) * s * d * t * r * r2d2 * (3 * r ^ 2 - 8 * d ^ 2) * Real.sqrt (7 / (10 * Real.pi)) / 8

/-- `cylindrical_section`: `qlm[5, L+1]`.  newt/qlmACH.py:528-530. -/
noncomputable def seg51 (rho t r d s r2d2 : ℝ) : ℝ :=
  let q51 : ℝ := (-rho) * s * t * r * r2d2 * Real.sqrt (11 / (30 * Real.pi)) / 112 * (16 * d ^ 4 - 28 * d ^ 2 * t ^ 2
    + 7 * t ^ 4 + 6 * (4 * d ^ 2 - 7 * t ^ 2) * r ^ 2 + 30 * r ^ 4)
  q51

/-- `cylindrical_section`: `qlm[5, L+3]`.  newt/qlmACH.py:531-533. -/
noncomputable def seg53 (rho t r d s r2d2 : ℝ) : ℝ :=
  let q53 : ℝ := (-rho) * s * t * r * r2d2 * Real.sqrt (11 / (35 * Real.pi)) / 144 * ((-48) * d ^ 4 - 14 * t ^ 2
    * r ^ 2 + 15 * r ^ 4 + 12 * d ^ 2 * (7 * t ^ 2 - 6 * r ^ 2))
  q53

/-- `cylindrical_section`: `qlm[5, L+5]`.  newt/qlmACH.py:534-536. -/
noncomputable def seg55 (rho t r d s r2d2 : ℝ) : ℝ :=
  let q55 : ℝ := (-rho) * s * t * r * r2d2 * Real.sqrt (11 / (7 * Real.pi)) / 80 * (80 * d ^ 4 - 48 * d ^ 2 * r ^ 2
    + 3 * r ^ 4)
  q55

/-- The cells `qlm[l, L+m]`, `m >= 0`, of `cylindrical_section`; all other cells stay `0`.  newt/qlmACH.py:510-536. -/
noncomputable def segCell (rho t r d : ℝ) (l m : ℕ) : ℂ :=
  let s : ℝ := Real.sqrt (1 - (d / r) ^ 2)
  let acdr : ℝ := Real.arccos (d / r)
  let r2d2 : ℝ := r ^ 2 - d ^ 2
  match l, m with
  | 0, 0 => ((seg00 rho t r d s acdr : ℝ) : ℂ)
  | 1, 1 => ((seg11 rho t r s r2d2 : ℝ) : ℂ)
  | 2, 0 => ((seg20 rho t r d s acdr : ℝ) : ℂ)
  | 2, 2 => ((seg22 rho t r d s r2d2 : ℝ) : ℂ)
  | 3, 1 => ((seg31 rho t r d s r2d2 : ℝ) : ℂ)
  | 3, 3 => ((seg33 rho t r d s r2d2 : ℝ) : ℂ)
  | 4, 0 => ((seg40 rho t r d s acdr : ℝ) : ℂ)
  | 4, 2 => ((seg42 rho t r d s r2d2 : ℝ) : ℂ)
  | 4, 4 => ((seg44 rho t r d s r2d2 : ℝ) : ℂ)
  | 5, 1 => ((seg51 rho t r d s r2d2 : ℝ) : ℂ)
  | 5, 3 => ((seg53 rho t r d s r2d2 : ℝ) : ℂ)
  | 5, 5 => ((seg55 rho t r d s r2d2 : ℝ) : ℂ)
  | _, _ => 0

open Classical in
/-- `cylindrical_section(LMax, rho, t, r, d)`.  newt/qlmACH.py:479-547. -/
noncomputable def cylindricalSection (LMax : ℕ) (rho t r d : ℝ) : Res LMax :=
  if d ≤ 0 ∨ r ≤ d ∨ t ≤ 0 then .valueError
  else .ok (table LMax (segCell rho t r d))

/-- `tetrahedron`: `qlm[0, L+0]`.  newt/qlmACH.py:584. -/
noncomputable def tet00 (q00 : ℝ) : ℝ :=
  q00

/-- `tetrahedron`: `qlm[1, L+0]`.  newt/qlmACH.py:585. -/
noncomputable def tet10 (z q00 : ℝ) : ℝ :=
  q00 * z * Real.sqrt (3) / 4

/-- `tetrahedron`: `qlm[1, L+1]`.  newt/qlmACH.py:586. -/
noncomputable def tet11 (x y q00 : ℝ) : ℂ :=
  (-q00) * 3 * (x - Complex.I * y) / (4 * Real.sqrt (6))

/-- `tetrahedron`: `qlm[2, L+0]`.  newt/qlmACH.py:587. -/
noncomputable def tet20 (x y z q00 : ℝ) : ℝ :=
  (-q00) * (x ^ 2 + y ^ 2 - 2 * z ^ 2) / (4 * Real.sqrt (5))

/-- `tetrahedron`: `qlm[2, L+1]`.  newt/qlmACH.py:588. -/
noncomputable def tet21 (x y z q00 : ℝ) : ℂ :=
  (-q00) * 3 * z * (x - Complex.I * y) / (4 * Real.sqrt (30))

/-- `tetrahedron`: `qlm[2, L+2]`.  newt/qlmACH.py:589. -/
noncomputable def tet22 (x y q00 : ℝ) : ℂ :=
  q00 * 3 * (x ^ 2 - Complex.I * x * y - y ^ 2) / (4 * Real.sqrt (30))

/-- `tetrahedron`: `qlm[3, L+0]`.  newt/qlmACH.py:590. -/
noncomputable def tet30 (x y z q00 : ℝ) : ℝ :=
  (-q00) * z * (x ^ 2 + y ^ 2 - 2 * z ^ 2) * Real.sqrt (7) / 40

/-- `tetrahedron`: `qlm[3, L+1]`.  newt/qlmACH.py:591-592. -/
noncomputable def tet31 (x y z q00 : ℝ) : ℂ :=
  q00 * (3 * x ^ 3 - Complex.I * x ^ 2 * y + x * y ^ 2 - (3 * Complex.I) * y ^ 3 - 4 * (x - Complex.I * y) * z ^ 2)
    * (Real.sqrt (7 / 3) / 80)

/-- `tetrahedron`: `qlm[3, L+2]`.  newt/qlmACH.py:593. -/
noncomputable def tet32 (x y z q00 : ℝ) : ℂ :=
  q00 * z * (x ^ 2 - Complex.I * x * y - y ^ 2) * Real.sqrt (7 / 30) / 8

/-- `tetrahedron`: `qlm[3, L+3]`.  newt/qlmACH.py:594. -/
noncomputable def tet33 (x y q00 : ℝ) : ℂ :=
  (-q00) * (x ^ 2 - y ^ 2) * (x - Complex.I * y) * Real.sqrt (7 / 5) / 16

/-- `tetrahedron`: `qlm[4, L+0]`.  newt/qlmACH.py:595. -/
noncomputable def tet40 (x y z q00 : ℝ) : ℝ :=
  q00 * (3 * x ^ 4 + x ^ 2 * y ^ 2 + 3 * y ^ 4 - 4 * z ^ 2 * (x ^ 2 + y ^ 2) + 8 * z ^ 4) * 3 / 280

/-- `tetrahedron`: `qlm[4, L+1]`.  newt/qlmACH.py:596-597. -/
noncomputable def tet41 (x y z q00 : ℝ) : ℂ :=
  let q41 : ℂ := z * (3 * x ^ 3 - Complex.I * x ^ 2 * y + x * y ^ 2 - (3 * Complex.I) * y ^ 3 - 4 * z ^ 2 * (x
    - Complex.I * y))
  q00 * q41 * 3 / (112 * Real.sqrt (5))

/-- `tetrahedron`: `qlm[4, L+2]`.  newt/qlmACH.py:598-599. -/
noncomputable def tet42 (x y z q00 : ℝ) : ℂ :=
  let q42 : ℂ := 2 * x ^ 4 - Complex.I * x ^ 3 * y - Complex.I * x * y ^ 3 - 2 * y ^ 4 - 2 * (x ^ 2 - Complex.I
    * x * y - y ^ 2) * z ^ 2
  (-q00) * q42 * 3 / (56 * Real.sqrt (10))

/-- `tetrahedron`: `qlm[4, L+3]`.  newt/qlmACH.py:600. -/
noncomputable def tet43 (x y z q00 : ℝ) : ℂ :=
  (-q00) * z * (x ^ 2 - y ^ 2) * (x - Complex.I * y) * 3 / (16 * Real.sqrt (35))

/-- `tetrahedron`: `qlm[4, L+4]`.  newt/qlmACH.py:601-602. -/
noncomputable def tet44 (x y q00 : ℝ) : ℂ :=
  let q44 : ℂ := x ^ 4 - Complex.I * x ^ 3 * y - x ^ 2 * y ^ 2 + Complex.I * x * y ^ 3 + y ^ 4
  q00 * q44 * 3 / (8 * Real.sqrt (70))

/-- `tetrahedron`: `qlm[5, L+0]`.  newt/qlmACH.py:603-604. -/
noncomputable def tet50 (x y z q00 : ℝ) : ℝ :=
  let q50 : ℝ := z * (3 * x ^ 4 + x ^ 2 * y ^ 2 + 3 * y ^ 4 - 4 * (x ^ 2 + y ^ 2) * z ^ 2 + 8 * z ^ 4)
  q00 * q50 * Real.sqrt (11) / 448

/-- `tetrahedron`: `qlm[5, L+1]`.  newt/qlmACH.py:605-607. -/
noncomputable def tet51 (x y z q00 : ℝ) : ℂ :=
  let q51 : ℂ := 5 * x ^ 5 - Complex.I * x ^ 4 * y + x ^ 3 * y ^ 2 - Complex.I * x ^ 2 * y ^ 3 + x * y ^ 4 - (5
    * Complex.I) * y ^ 5 + ((-2) * (x + Complex.I * y) * (3 * x ^ 2 - (4 * Complex.I) * x * y - 3 * y ^ 2) * z ^ 2
    + 8 * (x - Complex.I * y) * z ^ 4)
  (-q00) * q51 * Real.sqrt (11 / 30) * 3 / 448

/-- `tetrahedron`: `qlm[5, L+2]`.  newt/qlmACH.py:608-609. -/
noncomputable def tet52 (x y z q00 : ℝ) : ℂ :=
  let q52 : ℂ := z * ((-2) * x ^ 4 + Complex.I * x ^ 3 * y + Complex.I * x * y ^ 3 + 2 * y ^ 4 + 2 * (x ^ 2 - Complex.I
    * x * y - y ^ 2) * z ^ 2)
  q00 * q52 * Real.sqrt (11 / 210) * 3 / 64

/-- `tetrahedron`: `qlm[5, L+3]`.  newt/qlmACH.py:610-612. -/
noncomputable def tet53 (x y z q00 : ℝ) : ℂ :=
  let q53 : ℂ := 5 * x ^ 5 - (3 * Complex.I) * x ^ 4 * y - x ^ 3 * y ^ 2 - Complex.I * x ^ 2 * y ^ 3 - 3 * x * y ^ 4
    + (5 * Complex.I) * y ^ 5 - 4 * (x ^ 2 - y ^ 2) * (x - Complex.I * y) * z ^ 2
  q00 * q53 * Real.sqrt (11 / 35) / 128

/-- `tetrahedron`: `qlm[5, L+4]`.  newt/qlmACH.py:614-615. -/
noncomputable def tet54 (x y z q00 : ℝ) : ℂ :=
  let q54 : ℂ := z * (x ^ 4 - Complex.I * x ^ 3 * y - x ^ 2 * y ^ 2 + Complex.I * x * y ^ 3 + y ^ 4)
  q00 * q54 * Real.sqrt (11 / 70) * 3 / 64

/-- `tetrahedron`: `qlm[5, L+5]`.  newt/qlmACH.py:616-617. -/
noncomputable def tet55 (x y q00 : ℝ) : ℂ :=
  let q55 : ℂ := (x - Complex.I * y) * ((x ^ 2 - y ^ 2) ^ 2 + x ^ 2 * y ^ 2)
  (-q00) * q55 * Real.sqrt (11 / 7) * 3 / 128

/-- The cells `qlm[l, L+m]`, `m >= 0`, of `tetrahedron`; all other cells stay `0`.  newt/qlmACH.py:583-617. -/
noncomputable def tetCell (rho x y z : ℝ) (l m : ℕ) : ℂ :=
  let q00 : ℝ := rho * x * y * z / (6 * Real.sqrt (4 * Real.pi))
  match l, m with
  | 0, 0 => ((tet00 q00 : ℝ) : ℂ)
  | 1, 0 => ((tet10 z q00 : ℝ) : ℂ)
  | 1, 1 => tet11 x y q00
  | 2, 0 => ((tet20 x y z q00 : ℝ) : ℂ)
  | 2, 1 => tet21 x y z q00
  | 2, 2 => tet22 x y q00
  | 3, 0 => ((tet30 x y z q00 : ℝ) : ℂ)
  | 3, 1 => tet31 x y z q00
  | 3, 2 => tet32 x y z q00
  | 3, 3 => tet33 x y q00
  | 4, 0 => ((tet40 x y z q00 : ℝ) : ℂ)
  | 4, 1 => tet41 x y z q00
  | 4, 2 => tet42 x y z q00
  | 4, 3 => tet43 x y z q00
  | 4, 4 => tet44 x y q00
  | 5, 0 => ((tet50 x y z q00 : ℝ) : ℂ)
  | 5, 1 => tet51 x y z q00
  | 5, 2 => tet52 x y z q00
  | 5, 3 => tet53 x y z q00
  | 5, 4 => tet54 x y z q00
  | 5, 5 => tet55 x y q00
  | _, _ => 0

open Classical in
/-- `tetrahedron(LMax, rho, x, y, z)`.  newt/qlmACH.py:550-628. -/
noncomputable def tetrahedron (LMax : ℕ) (rho x y z : ℝ) : Res LMax :=
  if x ≤ 0 ∨ y ≤ 0 ∨ z ≤ 0 then .valueError
  else .ok (table LMax (tetCell rho x y z))

/-- `platehole`: `qlm[0, L+0]`.  newt/qlmACH.py:789. -/
noncomputable def plate00 (q00 : ℝ) : ℝ :=
  q00

/-- `platehole`: `qlm[2, L+0]`.  newt/qlmACH.py:790. -/
noncomputable def plate20 (t r s q00 : ℝ) : ℝ :=
  (-q00) * (3 * r ^ 2 * (s ^ 2 + 2) + t ^ 2 * (s ^ 2 - 2)) * Real.sqrt (5) / 24

/-- `platehole`: `qlm[2, L+1]`.  newt/qlmACH.py:791. -/
noncomputable def plate21 (t s q00 : ℝ) : ℝ :=
  (-q00) * t ^ 2 * s * Real.sqrt (5 / 6) / 4

/-- `platehole`: `qlm[2, L+2]`.  newt/qlmACH.py:792. -/
noncomputable def plate22 (t r s q00 : ℝ) : ℝ :=
  q00 * s ^ 2 * (3 * r ^ 2 + t ^ 2) * Real.sqrt (5 / 6) / 8

/-- `platehole`: `qlm[4, L+0]`.  newt/qlmACH.py:793-795. -/
noncomputable def plate40 (t r s q00 : ℝ) : ℝ :=
  let q40 : ℝ := 10 * r ^ 4 * (8 + 8 * s ^ 2 + 3 * s ^ 4) + 10 * t ^ 2 * r ^ 2 * (3 * s ^ 4 - 8) + t ^ 4 * (8 - 24
    * s ^ 2 + 3 * s ^ 4)
  q00 * q40 * 3 / 640

/-- `platehole`: `qlm[4, L+1]`.  newt/qlmACH.py:796-797. -/
noncomputable def plate41 (t r s q00 : ℝ) : ℝ :=
  let q41 : ℝ := t ^ 2 * s * (5 * r ^ 2 * (4 + 3 * s ^ 2) + t ^ 2 * (3 * s ^ 2 - 4))
  q00 * q41 * 3 / (64 * Real.sqrt (5))

/-- `platehole`: `qlm[4, L+2]`.  newt/qlmACH.py:798-799. -/
noncomputable def plate42 (t r s q00 : ℝ) : ℝ :=
  let q42 : ℝ := s ^ 2 * (10 * r ^ 4 * (s ^ 2 + 2) + 10 * (r * s * t) ^ 2 + t ^ 4 * (s ^ 2 - 6))
  (-q00) * q42 * 3 / (64 * Real.sqrt (10))

/-- `platehole`: `qlm[4, L+3]`.  newt/qlmACH.py:800. -/
noncomputable def plate43 (t r s q00 : ℝ) : ℝ :=
  (-q00) * s ^ 3 * (t ^ 4 + 5 * r ^ 2 * t ^ 2) * Real.sqrt (7 / 5) * 3 / 64

/-- `platehole`: `qlm[4, L+4]`.  newt/qlmACH.py:801. -/
noncomputable def plate44 (t r s q00 : ℝ) : ℝ :=
  q00 * s ^ 4 * (10 * r ^ 4 + 10 * r ^ 2 * t ^ 2 + t ^ 4) * Real.sqrt (7 / 10) * 3 / 128

/-- The cells `qlm[l, L+m]`, `m >= 0`, of `platehole`; all other cells stay `0`.  newt/qlmACH.py:787-801. -/
noncomputable def plateCell (rho t r theta : ℝ) (l m : ℕ) : ℂ :=
  let s : ℝ := Real.tan (theta)
  let q00 : ℝ := rho * t * r ^ 2 * Real.sqrt (Real.pi * (1 + s ^ 2)) / 2
  match l, m with
  | 0, 0 => ((plate00 q00 : ℝ) : ℂ)
  | 2, 0 => ((plate20 t r s q00 : ℝ) : ℂ)
  | 2, 1 => ((plate21 t s q00 : ℝ) : ℂ)
  | 2, 2 => ((plate22 t r s q00 : ℝ) : ℂ)
  | 4, 0 => ((plate40 t r s q00 : ℝ) : ℂ)
  | 4, 1 => ((plate41 t r s q00 : ℝ) : ℂ)
  | 4, 2 => ((plate42 t r s q00 : ℝ) : ℂ)
  | 4, 3 => ((plate43 t r s q00 : ℝ) : ℂ)
  | 4, 4 => ((plate44 t r s q00 : ℝ) : ℂ)
  | _, _ => 0

open Classical in
/-- `platehole(LMax, rho, t, r, theta)`.  newt/qlmACH.py:753-812.  At `theta = +-pi/2`, which the check
lets through, `tan` has no real value (numpy returns a huge finite one): the value of the model there
is an artefact of Lean's convention, and no theorem about the cells covers it. -/
noncomputable def platehole (LMax : ℕ) (rho t r theta : ℝ) : Res LMax :=
  if r ≤ 0 ∨ t ≤ 0 ∨ |theta| > Real.pi / 2 then .valueError
  else .ok (table LMax (plateCell rho t r theta))

/-- `pyramid`: `qlm[0, L+0]`.  newt/qlmACH.py:848. -/
noncomputable def pyr00 (q00 : ℝ) : ℝ :=
  q00

/-- `pyramid`: `qlm[1, L+0]`.  newt/qlmACH.py:849. -/
noncomputable def pyr10 (h q00 : ℝ) : ℝ :=
  q00 * h * Real.sqrt (3) / 4

/-- `pyramid`: `qlm[2, L+0]`.  newt/qlmACH.py:850. -/
noncomputable def pyr20 (h x y q00 : ℝ) : ℝ :=
  q00 * (4 * h ^ 2 - x ^ 2 - y ^ 2) / (8 * Real.sqrt (5))

/-- `pyramid`: `qlm[2, L+2]`.  newt/qlmACH.py:851. -/
noncomputable def pyr22 (x y q00 : ℝ) : ℝ :=
  q00 * (x ^ 2 - y ^ 2) * Real.sqrt (3 / 10) / 8

/-- `pyramid`: `qlm[3, L+0]`.  newt/qlmACH.py:852. -/
noncomputable def pyr30 (h x y q00 : ℝ) : ℝ :=
  q00 * h * (4 * h ^ 2 - x ^ 2 - y ^ 2) * Real.sqrt (7) / 80

/-- `pyramid`: `qlm[3, L+2]`.  newt/qlmACH.py:853. -/
noncomputable def pyr32 (h x y q00 : ℝ) : ℝ :=
  q00 * h * (x ^ 2 - y ^ 2) * Real.sqrt (7 / 30) / 16

/-- `pyramid`: `qlm[4, L+0]`.  newt/qlmACH.py:854-855. -/
noncomputable def pyr40 (h x y q00 : ℝ) : ℝ :=
  let q40 : ℝ := 128 * h ^ 4 + 9 * x ^ 4 + 10 * x ^ 2 * y ^ 2 + 9 * y ^ 4 - 32 * h ^ 2 * (x ^ 2 + y ^ 2)
  q00 * q40 * 3 / 4480

/-- `pyramid`: `qlm[4, L+2]`.  newt/qlmACH.py:856-857. -/
noncomputable def pyr42 (h x y q00 : ℝ) : ℝ :=
  let q42 : ℝ := (x ^ 2 - y ^ 2) * (8 * h ^ 2 - 3 * (x ^ 2 + y ^ 2))
  q00 * q42 * 3 / (448 * Real.sqrt (10))

/-- `pyramid`: `qlm[4, L+4]`.  newt/qlmACH.py:858-859. -/
noncomputable def pyr44 (x y q00 : ℝ) : ℝ :=
  let q44 : ℝ := 3 * x ^ 4 - 10 * x ^ 2 * y ^ 2 + 3 * y ^ 4
  q00 * q44 * 3 / (128 * Real.sqrt (70))

/-- `pyramid`: `qlm[5, L+0]`.  newt/qlmACH.py:861-862. -/
noncomputable def pyr50 (h x y q00 : ℝ) : ℝ :=
  let q50 : ℝ := h * (128 * h ^ 4 + 9 * x ^ 4 + 10 * x ^ 2 * y ^ 2 + 9 * y ^ 4 - 32 * h ^ 2 * (x ^ 2 + y ^ 2))
  q00 * q50 * Real.sqrt (11) / 7168

/-- `pyramid`: `qlm[5, L+2]`.  newt/qlmACH.py:863-864. -/
noncomputable def pyr52 (h x y q00 : ℝ) : ℝ :=
  let q52 : ℝ := h * (x ^ 2 - y ^ 2) * (8 * h ^ 2 - 3 * (x ^ 2 + y ^ 2))
  q00 * q52 * Real.sqrt (33 / 70) / 512

/-- `pyramid`: `qlm[5, L+4]`.  newt/qlmACH.py:865. -/
noncomputable def pyr54 (h x y q00 : ℝ) : ℝ :=
  q00 * (3 * x ^ 4 - 10 * x ^ 2 * y ^ 2 + 3 * y ^ 4) * Real.sqrt (11 / 70) * 3 * h / 1024

/-- The cells `qlm[l, L+m]`, `m >= 0`, of `pyramid`; all other cells stay `0`.  newt/qlmACH.py:847-865. -/
noncomputable def pyrCell (rho h x y : ℝ) (l m : ℕ) : ℂ :=
  let q00 : ℝ := rho * h * x * y / (6 * Real.sqrt (Real.pi))
  match l, m with
  | 0, 0 => ((pyr00 q00 : ℝ) : ℂ)
  | 1, 0 => ((pyr10 h q00 : ℝ) : ℂ)
  | 2, 0 => ((pyr20 h x y q00 : ℝ) : ℂ)
  | 2, 2 => ((pyr22 x y q00 : ℝ) : ℂ)
  | 3, 0 => ((pyr30 h x y q00 : ℝ) : ℂ)
  | 3, 2 => ((pyr32 h x y q00 : ℝ) : ℂ)
  | 4, 0 => ((pyr40 h x y q00 : ℝ) : ℂ)
  | 4, 2 => ((pyr42 h x y q00 : ℝ) : ℂ)
  | 4, 4 => ((pyr44 x y q00 : ℝ) : ℂ)
  | 5, 0 => ((pyr50 h x y q00 : ℝ) : ℂ)
  | 5, 2 => ((pyr52 h x y q00 : ℝ) : ℂ)
  | 5, 4 => ((pyr54 h x y q00 : ℝ) : ℂ)
  | _, _ => 0

open Classical in
/-- `pyramid(LMax, rho, h, x, y)`.  newt/qlmACH.py:815-876. -/
noncomputable def pyramid (LMax : ℕ) (rho h x y : ℝ) : Res LMax :=
  if x ≤ 0 ∨ y ≤ 0 ∨ h ≤ 0 then .valueError
  else .ok (table LMax (pyrCell rho h x y))

end Newt.QlmACH
