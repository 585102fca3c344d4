import Verif.Model.TranslationRecurs

/-!
# Model of the Yukawa recursions of `newt/translationRecurs.py` (lines 13-136, 315-335)

`transl_yuk_z_SR_recurs` and `transl_yuk_z_RR_recurs` differ only in the Bessel function that starts
them.  A real array is a function of its 0-based indices; cells that are never assigned are `0`, as
in `np.zeros`.  `sp.spherical_kn` is only meant for positive arguments (it is infinite at `0`).
-/

namespace Newt

/-- Auxiliary pair `(k_n x, k_(n+1) x)` of modified spherical Bessel functions of the second kind, from
`k_0 = pi/2 exp(-x)/x`, `k_1 = pi/2 exp(-x) (1/x + 1/x^2)` and the three-term recurrence. -/
noncomputable def sphericalKnPair (x : ℝ) : ℕ → ℝ × ℝ
  | 0 => (Real.pi / 2 * Real.exp (-x) / x, Real.pi / 2 * Real.exp (-x) * (1 / x + 1 / x ^ 2))
  | n + 1 => ((sphericalKnPair x n).2,
      (sphericalKnPair x n).1 + (2 * n + 3) / x * (sphericalKnPair x n).2)

/-- `sp.spherical_kn(n, x)` for `x > 0`. -/
noncomputable def sphericalKn (n : ℕ) (x : ℝ) : ℝ := (sphericalKnPair x n).1

namespace trr

/-- `get_bnm(n, m)`.  newt/translationRecurs.py:315-323. -/
noncomputable def get_bnm (n m : ℤ) : ℝ :=
  if |m| > n then 0
  else Real.sqrt ((n - m - 1) * (n - m) / ((2 * n - 1) * (2 * n + 1))) * n.sign

/-- `get_anm(n, m)`.  newt/translationRecurs.py:326-335. -/
noncomputable def get_anm (n m : ℤ) : ℝ :=
  if |m| > n then 0
  else Real.sqrt ((n + |m| + 1) * (n - |m| + 1) / ((2 * n + 1) * (2 * n + 3)))

/-- Column `m` of `eflm`, started with the column `start`.  In row `0` the code reads `eflm[-1, m]`,
which is the last row.  newt/translationRecurs.py:30-41, 93-104. -/
noncomputable def yukCol (LMax : ℕ) (start : ℕ → ℝ) : ℕ → ℕ → ℝ
  | 0, l => if l ≤ 2 * LMax then start l else 0
  | m + 1, l =>
    if l < 2 * LMax - m then
      (yukCol LMax start m (if l = 0 then 2 * LMax else l - 1) * get_bnm l (-m - 1)
        - yukCol LMax start m (l + 1) * get_bnm (l + 1) m) / get_bnm (m + 1) (-m - 1)
    else 0

/-- One cell `efm[l, n+1]` from the columns `n-1` (`prev2`) and `n` (`prev`).
newt/translationRecurs.py:51-61, 114-124. -/
noncomputable def yukCell (m : ℕ) (prev2 prev : ℕ → ℝ) (n l : ℕ) : ℝ :=
  let anm := get_anm (n + m) m
  let alm := get_anm (l + m) m
  let almm := get_anm (l - 1 + m) m
  let anmm := get_anm (n - 1 + m) m
  if anmm ≠ 0 then (almm * prev (l - 1) - alm * prev (l + 1) + anmm * prev2 l) / anm
  else (alm * prev (l + 1) - almm * prev (l - 1)) / anm

/-- Column `n` of `efm` for the order `m`, `n <= LMax - m`.  For `n = 0` the column before the first is
not read (`anmm` is `0`).  newt/translationRecurs.py:47-61, 110-124. -/
noncomputable def yukMat (LMax : ℕ) (start : ℕ → ℝ) (m : ℕ) : ℕ → ℕ → ℝ
  | 0, l => if l < 2 * LMax + 1 - 2 * m then yukCol LMax start m (m + l) else 0
  | 1, l => if 1 ≤ l ∧ l < 2 * (LMax - m) then yukCell m 0 (yukMat LMax start m 0) 0 l else 0
  | n + 2, l =>
    if n + 2 ≤ l ∧ l < 2 * (LMax - m) - (n + 1) then
      yukCell m (yukMat LMax start m n) (yukMat LMax start m (n + 1)) (n + 1) l
    else 0

/-- The matrix of order `m` after truncation and symmetrisation, cell `(i, j)`.
newt/translationRecurs.py:64-71, 127-134. -/
noncomputable def yukFinal (LMax : ℕ) (start : ℕ → ℝ) (m i j : ℕ) : ℝ :=
  let enl := fun a b : ℕ => yukMat LMax start m a b * ((-1) ^ (m + a) * (-1) ^ (m + b))
  yukMat LMax start m j i + enl i j - (if i = j then enl i i else 0)

/-- `transl_yuk_z_RR_recurs(LMax, dr, k)`: the table `eflm` (row, column) and the matrices.
newt/translationRecurs.py:76-136. -/
noncomputable def transl_yuk_z_RR_recurs (LMax : ℕ) (dr k : ℝ) : (ℕ → ℕ → ℝ) × List (ℕ → ℕ → ℝ) :=
  let start := fun l : ℕ => (-1) ^ l * Real.sqrt (2 * l + 1) * sphericalIn l (k * dr)
  (fun l m => yukCol LMax start m l, (List.range (LMax + 1)).map fun m => yukFinal LMax start m)

/-- `transl_yuk_z_SR_recurs(LMax, dr, k)` for `k*dr > 0`.  newt/translationRecurs.py:13-73. -/
noncomputable def transl_yuk_z_SR_recurs (LMax : ℕ) (dr k : ℝ) : (ℕ → ℕ → ℝ) × List (ℕ → ℕ → ℝ) :=
  let start := fun l : ℕ => (-1) ^ l * Real.sqrt (2 * l + 1) * sphericalKn l (k * dr)
  (fun l m => yukCol LMax start m l, (List.range (LMax + 1)).map fun m => yukFinal LMax start m)

end trr

end Newt
