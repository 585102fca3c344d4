import Verif.Model.Qlm
import Mathlib.Data.Real.Sign

/-!
# Model of `newt/bigQlm.py` (closed-form outer moments)
-/

namespace Newt.BigQlm

open Newt.Qlm (fill)

/-- Outcome of a constructor of `newt/bigQlm.py`: `ValueError`, a division by zero while the cells
are being computed (`ZeroDivisionError` with Python floats, `inf`/`nan` cells and a warning with numpy
floats; the two are not told apart), or a proper array. -/
inductive Res (L : ℕ) where
  | valueError
  | zeroDivision
  | ok (q : Mom L)

open Classical in
/-- `sphere(LMax, dens, R, x, y, z)`.  newt/bigQlm.py:11-56. -/
noncomputable def sphere (LMax : ℕ) (dens R x y z : ℝ) : Res LMax :=
  let M : ℝ := dens * (4 * Real.pi * R ^ 3) / 3
  let d : ℝ := Real.sqrt (x ^ 2 + y ^ 2 + z ^ 2)
  if d = 0 then .valueError
  else
    let theta : ℝ := Real.arccos (z / d)
    let phi : ℝ := pyMod (arctan2 y x) (2 * Real.pi)
    .ok (fill LMax fun n m => (M : ℂ) * sphHarm m n phi theta / ((d ^ (n + 1) : ℝ) : ℂ))

/-- `Qlmb[0, L+0]`.  newt/bigQlm.py:102-103. -/
noncomputable def cell00 (dens H r0 r1 d0 d1 phih : ℝ) : ℝ :=
  let Q00 : ℝ := H * (d1 - d0) + r1 ^ 2 * Real.log ((H + d1) / r1) - r0 ^ 2 * Real.log ((H + d0) / r0)
  dens * phih * Q00 / (2 * Real.sqrt Real.pi)

/-- `Qlmb[1, L+0]`.  newt/bigQlm.py:104-105. -/
noncomputable def cell10 (dens sH H r0 r1 d0 d1 phih : ℝ) : ℝ :=
  let Q10 : ℝ := r1 - r0 - d1 + d0
  sH * dens * Real.sqrt (3 / Real.pi) * phih * Q10

/-- `Qlmb[1, L+1]`.  newt/bigQlm.py:106-107. -/
noncomputable def cell11 (dens H r0 r1 d0 d1 phih : ℝ) : ℝ :=
  let Q11 : ℝ := Real.log ((r1 + d1) / (r0 + d0))
  (-dens) * H * Real.sqrt (3 / (2 * Real.pi)) * Q11 * Real.sin phih

/-- `Qlmb[2, L+0]`.  newt/bigQlm.py:108-109. -/
noncomputable def cell20 (dens H r0 r1 d0 d1 phih : ℝ) : ℝ :=
  let Q22 : ℝ := 1 / d1 - 1 / d0
  dens * Real.sqrt (5 / (4 * Real.pi)) * phih * Q22

/-- `Qlmb[2, L+1]`.  newt/bigQlm.py:110-111. -/
noncomputable def cell21 (dens sH H r0 r1 d0 d1 phih : ℝ) : ℝ :=
  let Q21 : ℝ := r1 / d1 - r0 / d0 + Real.log ((r1 * (r0 + d0)) / (r0 * (r1 + d1)))
  (-sH) * dens * Real.sqrt (5 / (6 * Real.pi)) * Q21 * Real.sin phih

/-- `Qlmb[2, L+2]`.  newt/bigQlm.py:112-113. -/
noncomputable def cell22 (dens H r0 r1 d0 d1 phih : ℝ) : ℝ :=
  let Q22 : ℝ := H * (1 / d0 - 1 / d1) - 2 * Real.log ((r0 * (H + d1)) / (r1 * (H + d0)))
  dens * Real.sqrt (5 / (6 * Real.pi)) / 2 * Q22 * Real.sin (2 * phih) / 2

/-- `Qlmb[3, L+0]`.  newt/bigQlm.py:114-115. -/
noncomputable def cell30 (dens sH H r0 r1 d0 d1 phih : ℝ) : ℝ :=
  let Q30 : ℝ := 1 / r1 - 1 / r0 - r1 ^ 2 / d1 ^ 3 + r0 ^ 2 / d0 ^ 3
  sH * dens * Real.sqrt (7 / Real.pi) / 6 * Q30 * phih

/-- `Qlmb[3, L+1]`.  newt/bigQlm.py:116-117. -/
noncomputable def cell31 (dens H r0 r1 d0 d1 phih : ℝ) : ℝ :=
  let Q31 : ℝ := (r1 ^ 3 / d1 ^ 3 - r0 ^ 3 / d0 ^ 3) / H
  dens * Real.sqrt (7 / (3 * Real.pi)) / 4 * Q31 * Real.sin phih

/-- `Qlmb[3, L+2]`.  newt/bigQlm.py:118-119. -/
noncomputable def cell32 (dens sH H r0 r1 d0 d1 phih : ℝ) : ℝ :=
  let Q32 : ℝ := 3 * (1 / r1 - 1 / r0) - (3 * r1 ^ 2 + 2 * H ^ 2) / d1 ^ 3 + (3 * r0 ^ 2 + 2 * H ^ 2) / d0 ^ 3
  (-sH) * dens * Real.sqrt (7 / (30 * Real.pi)) / 2 * Q32 * Real.sin (2 * phih) / 2

/-- `Qlmb[3, L+3]`.  newt/bigQlm.py:120-122. -/
noncomputable def cell33 (dens H r0 r1 d0 d1 phih : ℝ) : ℝ :=
  let Q33 : ℝ := (8 * H ^ 4 + 12 * H ^ 2 * r1 ^ 2 + 3 * r1 ^ 4) / (r1 * d1 ^ 3)
    - (8 * H ^ 4 + 12 * H ^ 2 * r0 ^ 2 + 3 * r0 ^ 4) / (r0 * d0 ^ 3)
  dens * Real.sqrt (7 / (5 * Real.pi)) / (12 * H) * Q33 * Real.sin (3 * phih) / 3

/-- `Qlmb[4, L+0]`.  newt/bigQlm.py:123-124. -/
noncomputable def cell40 (dens H r0 r1 d0 d1 phih : ℝ) : ℝ :=
  let Q40 : ℝ := H * (r0 ^ 2 / d0 ^ 5 - r1 ^ 2 / d1 ^ 5)
  dens * (3 / (8 * Real.sqrt Real.pi)) * Q40 * phih

/-- `Qlmb[4, L+1]`.  newt/bigQlm.py:125-127. -/
noncomputable def cell41 (dens sH H r0 r1 d0 d1 phih : ℝ) : ℝ :=
  let Q41 : ℝ := 3 / r0 ^ 2 - (8 * H ^ 2 + 2 * r0 ^ 2) * r0 ^ 3 / (H ^ 2 * d0 ^ 5)
    - (3 / r1 ^ 2 - (8 * H ^ 2 + 2 * r1 ^ 2) * r1 ^ 3 / (H ^ 2 * d1 ^ 5))
  sH * dens / (8 * Real.sqrt (5 * Real.pi)) * Q41 * Real.sin phih

/-- `Qlmb[4, L+2]`.  newt/bigQlm.py:128-129. -/
noncomputable def cell42 (dens H r0 r1 d0 d1 phih : ℝ) : ℝ :=
  let Q42 : ℝ := H * ((2 * H ^ 2 + 5 * r1 ^ 2) / d1 ^ 5 - (2 * H ^ 2 + 5 * r0 ^ 2) / d0 ^ 5)
  dens / (4 * Real.sqrt (10 * Real.pi)) * Q42 * Real.sin (2 * phih) / 2

/-- `Qlmb[4, L+3]`.  newt/bigQlm.py:130-131. -/
noncomputable def cell43 (dens sH H r0 r1 d0 d1 phih : ℝ) : ℝ :=
  let Q43 : ℝ := 5 * (1 / r1 ^ 2 - 1 / r0 ^ 2) + 2 * (r1 ^ 5 / d1 ^ 5 - r0 ^ 5 / d0 ^ 5) / H ^ 2
  sH * dens * 3 / (8 * Real.sqrt (35 * Real.pi)) * Q43 * Real.sin (3 * phih) / 3

/-- `Qlmb[4, L+4]`.  newt/bigQlm.py:132-134. -/
noncomputable def cell44 (dens H r0 r1 d0 d1 phih : ℝ) : ℝ :=
  let Q44 : ℝ := H * (24 * H ^ 4 + 56 * H ^ 2 * r0 ^ 2 + 35 * r0 ^ 4) / (r0 ^ 2 * d0 ^ 5)
    - H * (24 * H ^ 4 + 56 * H ^ 2 * r1 ^ 2 + 35 * r1 ^ 4) / (r1 ^ 2 * d1 ^ 5)
  dens / (8 * Real.sqrt (70 * Real.pi)) * Q44 * Real.sin (4 * phih) / 4

/-- `Qlmb[5, L+0]`.  newt/bigQlm.py:135-137. -/
noncomputable def cell50 (dens sH H r0 r1 d0 d1 phih : ℝ) : ℝ :=
  let Q50 : ℝ := 1 / r0 ^ 3 + r0 ^ 2 * (4 * H ^ 2 - r0 ^ 2) / d0 ^ 7
    - (1 / r1 ^ 3 + r1 ^ 2 * (4 * H ^ 2 - r1 ^ 2) / d1 ^ 7)
  sH * dens * Real.sqrt (11 / Real.pi) / 40 * Q50 * phih

/-- `Qlmb[5, L+1]`.  newt/bigQlm.py:138-140. -/
noncomputable def cell51 (dens H r0 r1 d0 d1 phih : ℝ) : ℝ :=
  let Q51 : ℝ := r1 ^ 3 * (20 * H ^ 4 + 7 * H ^ 2 * r1 ^ 2 + 2 * r1 ^ 4) / d1 ^ 7
    - r0 ^ 3 * (20 * H ^ 4 + 7 * H ^ 2 * r0 ^ 2 + 2 * r0 ^ 4) / d0 ^ 7
  dens * Real.sqrt (11 / (30 * Real.pi)) / (24 * H ^ 3) * Q51 * Real.sin phih

/-- `Qlmb[5, L+2]`.  newt/bigQlm.py:141-143. -/
noncomputable def cell52 (dens sH H r0 r1 d0 d1 phih : ℝ) : ℝ :=
  let Q52 : ℝ := 5 / r1 ^ 3 + (4 * H ^ 4 + 14 * H ^ 2 * r1 ^ 2 - 5 * r1 ^ 4) / d1 ^ 7
    - (5 / r0 ^ 3 + (4 * H ^ 4 + 14 * H ^ 2 * r0 ^ 2 - 5 * r0 ^ 4) / d0 ^ 7)
  sH * dens * Real.sqrt (11 / (210 * Real.pi)) / 12 * Q52 * Real.sin (2 * phih) / 2

/-- `Qlmb[5, L+3]`.  newt/bigQlm.py:144-145. -/
noncomputable def cell53 (dens H r0 r1 d0 d1 phih : ℝ) : ℝ :=
  let Q53 : ℝ := r1 ^ 5 * (7 * H ^ 2 + r1 ^ 2) / d1 ^ 7 - r0 ^ 5 * (7 * H ^ 2 + r0 ^ 2) / d0 ^ 7
  dens * Real.sqrt (11 / (35 * Real.pi)) / (16 * H ^ 3) * Q53 * Real.sin (3 * phih) / 3

/-- `Qlmb[5, L+4]`.  newt/bigQlm.py:146-148. -/
noncomputable def cell54 (dens sH H r0 r1 d0 d1 phih : ℝ) : ℝ :=
  let Q54 : ℝ := 35 / r0 ^ 3 - (8 * H ^ 4 + 28 * H ^ 2 * r0 ^ 2 + 35 * r0 ^ 4) / d0 ^ 7
    - (35 / r1 ^ 3 - (8 * H ^ 4 + 28 * H ^ 2 * r1 ^ 2 + 35 * r1 ^ 4) / d1 ^ 7)
  sH * dens * Real.sqrt (11 / (70 * Real.pi)) / 72 * Q54 * Real.sin (4 * phih) / 4

/-- `Qlmb[5, L+5]`.  newt/bigQlm.py:149-151. -/
noncomputable def cell55 (dens H r0 r1 d0 d1 phih : ℝ) : ℝ :=
  let Q55 : ℝ := (128 * H ^ 10 + 448 * H ^ 8 * r1 ^ 2 + 560 * H ^ 6 * r1 ^ 4 + 280 * H ^ 4 * r1 ^ 6
      + 35 * H ^ 2 * r1 ^ 8 + 10 * r1 ^ 10) / (r1 ^ 3 * d1 ^ 7)
    - (128 * H ^ 10 + 448 * H ^ 8 * r0 ^ 2 + 560 * H ^ 6 * r0 ^ 4 + 280 * H ^ 4 * r0 ^ 6
      + 35 * H ^ 2 * r0 ^ 8 + 10 * r0 ^ 10) / (r0 ^ 3 * d0 ^ 7)
  dens * Real.sqrt (11 / (7 * Real.pi)) / (720 * H ^ 3) * Q55 * Real.sin (5 * phih) / 5

/-- The cells `Qlmb[l, L+m]`, `m >= 0`, of `annulus` before the phase is applied, with `H` already
replaced by `np.abs(H)` and `sH` its sign; the rows above `5` stay `0`.
newt/bigQlm.py:95, 98-151. -/
noncomputable def annCell (dens sH H r0 r1 phih : ℝ) (l m : ℕ) : ℝ :=
  let d1 := Real.sqrt (H ^ 2 + r1 ^ 2)
  let d0 := Real.sqrt (H ^ 2 + r0 ^ 2)
  match l, m with
  | 0, 0 => cell00 dens H r0 r1 d0 d1 phih
  | 1, 0 => cell10 dens sH H r0 r1 d0 d1 phih
  | 1, 1 => cell11 dens H r0 r1 d0 d1 phih
  | 2, 0 => cell20 dens H r0 r1 d0 d1 phih
  | 2, 1 => cell21 dens sH H r0 r1 d0 d1 phih
  | 2, 2 => cell22 dens H r0 r1 d0 d1 phih
  | 3, 0 => cell30 dens sH H r0 r1 d0 d1 phih
  | 3, 1 => cell31 dens H r0 r1 d0 d1 phih
  | 3, 2 => cell32 dens sH H r0 r1 d0 d1 phih
  | 3, 3 => cell33 dens H r0 r1 d0 d1 phih
  | 4, 0 => cell40 dens H r0 r1 d0 d1 phih
  | 4, 1 => cell41 dens sH H r0 r1 d0 d1 phih
  | 4, 2 => cell42 dens H r0 r1 d0 d1 phih
  | 4, 3 => cell43 dens sH H r0 r1 d0 d1 phih
  | 4, 4 => cell44 dens H r0 r1 d0 d1 phih
  | 5, 0 => cell50 dens sH H r0 r1 d0 d1 phih
  | 5, 1 => cell51 dens H r0 r1 d0 d1 phih
  | 5, 2 => cell52 dens sH H r0 r1 d0 d1 phih
  | 5, 3 => cell53 dens H r0 r1 d0 d1 phih
  | 5, 4 => cell54 dens sH H r0 r1 d0 d1 phih
  | 5, 5 => cell55 dens H r0 r1 d0 d1 phih
  | _, _ => 0

open Classical in
/-- `annulus(LMax, dens, H, r0, r1, phic, phih)`.  newt/bigQlm.py:59-163. -/
noncomputable def annulus (LMax : ℕ) (dens H r0 r1 phic phih : ℝ) : Res LMax :=
  let L := if LMax < 5 then 5 else LMax
  if H = 0 ∨ r1 < r0 ∨ r1 < 0 ∨ r0 < 0 ∨ phih ≤ 0 ∨ phih > Real.pi then .valueError
  else if r0 = 0 then .zeroDivision
  else
    let sH := Real.sign H
    let Q : Mom L := fill L fun l m =>
      ((annCell dens sH |H| r0 r1 phih l m : ℝ) : ℂ) * Complex.exp (-Complex.I * m * phic)
    .ok (Mom.ofFn LMax fun l m => Q.get l m)

end Newt.BigQlm
