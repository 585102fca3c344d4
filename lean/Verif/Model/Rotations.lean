import Verif.Model.Extern
import Verif.Model.Moments

/-!
# Model of `newt/rotations.py` (Wigner matrices and rotation of moments)

A `(2n+1) x (2n+1)` matrix is a function of the two centred indices: the Python cell
`H[n][n+a, n+b]` is `H a b`.  All slices of the Python code stay inside the matrix, so values of the
function outside `-n..n` are irrelevant.
-/

namespace Newt

/-- A square matrix in centred indices. -/
abbrev CMat := ℤ → ℤ → ℝ

/-- `rsign(n)`.  newt/rotations.py:155-165. -/
def rsign (n : ℤ) : ℝ := if n < 0 then -1 else 1

/-- `dnm(n, m)`.  newt/rotations.py:118-122. -/
noncomputable def dnm (n m : ℤ) : ℝ := rsign m * Real.sqrt ((n - m) * (n + m + 1)) / 2

/-- `bnm(n, m)`.  newt/rotations.py:125-129. -/
noncomputable def bnm (n m : ℤ) : ℝ :=
  rsign m * Real.sqrt ((n - m - 1) * (n - m) / ((2 * n + 1) * (2 * n - 1)))

/-- `anm(n, m)`.  newt/rotations.py:132-139. -/
noncomputable def anm (n m : ℤ) : ℝ :=
  Real.sqrt ((n + 1 + m) * (n + 1 - m) / ((2 * n + 1) * (2 * n + 3)))

/-- `rfac(n, m) = exp(gammaln(n+1) - gammaln(m+1))`.  newt/rotations.py:142-152. -/
noncomputable def rfac (n m : ℤ) : ℝ := Real.exp (gammaln (n + 1) - gammaln (m + 1))

/-- `epsm(m)`.  newt/rotations.py:168-178. -/
noncomputable def epsm (m : ℤ) : ℝ := if m > -1 then (-1) ^ m else 1

/-- Slice assignment `H[n+r, n+lo : n+hi+1] = [f lo, ..., f hi]`. -/
noncomputable def setRow (H : CMat) (r lo hi : ℤ) (f : ℤ → ℝ) : CMat :=
  fun a b => if a = r ∧ lo ≤ b ∧ b ≤ hi then f b else H a b

/-- `copy_tri(M) = M + M.T - diag(diag(M))`.  newt/rotations.py:110-115. -/
noncomputable def copy_tri (M : CMat) : CMat := fun a b => M a b + M b a - (if a = b then M a a else 0)

/-- `np.rot90(M, 1)` in centred indices. -/
def rot90 (M : CMat) : CMat := fun a b => M b (-a)

/-- `np.rot90(M, -1)` in centred indices. -/
def rot90inv (M : CMat) : CMat := fun a b => M (-b) a

/-- Step 2: the matrix `Hk` after filling row 0 with associated Legendre functions.
newt/rotations.py:42-48. -/
noncomputable def hInit (k : ℕ) (beta : ℝ) : CMat :=
  setRow (fun _ _ => 0) 0 0 k fun m =>
    (-1) ^ m * Real.sqrt (rfac (k - m) (k + m)) * lpmv m.toNat k (Real.cos beta)

/-- Step 3: row 1 of degree `n` from row 0 of degree `n+1`.  newt/rotations.py:52-59. -/
noncomputable def hRow1 (n : ℕ) (beta : ℝ) (H Hup : CMat) : CMat :=
  setRow H 1 1 n fun m =>
    (bnm (n + 1) (-m - 1) * (1 - Real.cos beta) / 2 * Hup 0 (m + 1)
      - bnm (n + 1) (m - 1) * (1 + Real.cos beta) / 2 * Hup 0 (m - 1)
      - anm n m * Real.sin beta * Hup 0 m) / bnm (n + 1) 0

/-- Step 5 for one `mp`: row `-mp-1`.  newt/rotations.py:65-77 (`mp = 0`) and 79-89. -/
noncomputable def hStep5 (n : ℕ) (mp : ℤ) (H : CMat) : CMat :=
  let H1 := setRow H (-mp - 1) (mp + 1) (n - 1) fun m =>
    (dnm n (-mp) * H (-mp + 1) m + dnm n (m - 1) * H (-mp) (m - 1) - dnm n m * H (-mp) (m + 1))
      / dnm n (-mp - 1)
  setRow H1 (-mp - 1) n n fun m =>
    (dnm n (-mp) * H1 (-mp + 1) m + dnm n (n - 1) * H1 (-mp) (m - 1)) / dnm n (-mp - 1)

/-- Step 4 for one `mp`: row `mp+1`.  newt/rotations.py:91-99. -/
noncomputable def hStep4 (n : ℕ) (mp : ℤ) (H : CMat) : CMat :=
  let H1 := setRow H (mp + 1) (mp + 1) (n - 1) fun m =>
    (dnm n (mp - 1) * H (mp - 1) m - dnm n (m - 1) * H mp (m - 1) + dnm n m * H mp (m + 1))
      / dnm n mp
  setRow H1 (mp + 1) n n fun m =>
    (dnm n (mp - 1) * H1 (mp - 1) m - dnm n (n - 1) * H1 mp (m - 1)) / dnm n mp

/-- The wedge of degree `n` after the loop over `mp = 1, ..., K`.  newt/rotations.py:57-99. -/
noncomputable def hWedge (n : ℕ) (beta : ℝ) : ℕ → CMat
  | 0 => hStep5 n 0 (hRow1 n beta (hInit n beta) (hInit (n + 1) beta))
  | K + 1 => hStep4 n (K + 1) (hStep5 n (K + 1) (hWedge n beta K))

/-- `H[n]` of degree `n >= 1` when the function returns: the loop `for mp in range(1, n)` and the two
copies.  newt/rotations.py:51-105. -/
noncomputable def hFull (n : ℕ) (beta : ℝ) : CMat :=
  rot90 (copy_tri (rot90inv (copy_tri (hWedge n beta (n - 1)))))

/-- `rotate_H_recurs(p, beta)`: `none` stands for the scalar `1.0` returned for `p = 0`; otherwise
the list `H[0], ..., H[p]`.  Row 0 of degree `n+1` is read before degree `n+1` is completed, so it is
`hInit (n+1)`.  newt/rotations.py:11-107. -/
noncomputable def rotate_H_recurs (p : ℕ) (beta : ℝ) : Option (List CMat) :=
  if p = 0 then none
  else some ((List.range (p + 1)).map fun n => if n = 0 then hInit 0 beta else hFull n beta)

/-- The reduction `beta % (2*pi)` and the reflection of `(pi, 2pi)`: the angle handed to the
recursion.  newt/rotations.py:208-215, 254-261. -/
noncomputable def betaRed (beta : ℝ) : ℝ :=
  let b := pyMod beta (2 * Real.pi)
  if b > Real.pi then 2 * Real.pi - b else b

/-- `fac[LMax+a, LMax+b]`.  newt/rotations.py:211-215, 257-261. -/
noncomputable def betaFac (beta : ℝ) (a b : ℤ) : ℝ :=
  if pyMod beta (2 * Real.pi) > Real.pi then (-1) ^ a.natAbs * (-1) ^ b.natAbs else 1

/-- `dlmn(LMax, beta)`; `none` = TypeError (indexing the float returned for `LMax = 0`).
newt/rotations.py:181-222. -/
noncomputable def dlmn (LMax : ℕ) (beta : ℝ) : Option (List CMat) :=
  (rotate_H_recurs LMax (betaRed beta)).map fun ds => ds.map fun H =>
    fun a b => H a b * (epsm a * epsm (-b) * betaFac beta a b)

/-- `wignerDl(LMax, alpha, beta, gamma)`; `none` = TypeError for `LMax = 0`.
newt/rotations.py:225-272. -/
noncomputable def wignerDl (LMax : ℕ) (alpha beta gamma : ℝ) : Option (List (ℤ → ℤ → ℂ)) :=
  (rotate_H_recurs LMax (betaRed beta)).map fun ds => ds.map fun H =>
    fun a b => (H a b : ℂ) * ((epsm a * epsm (-b) : ℝ) *
      (Complex.exp (-Complex.I * a * alpha) * Complex.exp (-Complex.I * b * gamma))
        * (betaFac beta a b : ℝ))

/-- `qNew = np.copy(qlm); qNew[k, LMax-k:LMax+k+1] = np.dot(D_k, qlm[k, LMax-k:LMax+k+1])` for
`k = 1..LMax`.  newt/rotations.py:299-305, 328-338. -/
noncomputable def applyD {LMax : ℕ} (D : ℕ → ℤ → ℤ → ℂ) (q : Mom LMax) : Mom LMax :=
  Mom.ofFn LMax fun l m =>
    if 1 ≤ l ∧ |m| ≤ l then ∑ n ∈ Finset.Icc (-(l : ℤ)) l, D l m n * q.get l n else q.get l m

/-- `rotate_qlm(qlm, alpha, beta, gamma)`.  newt/rotations.py:275-305. -/
noncomputable def rotate_qlm {LMax : ℕ} (q : Mom LMax) (alpha beta gamma : ℝ) : Option (Mom LMax) :=
  (wignerDl (LMax + 1) alpha beta gamma).map fun ds => applyD (fun k => ds.getD k 0) q

/-- `rotate_qlm_Ds(qlm, ds, conj_trans)`: the input is returned unchanged (a copy) when the number of
matrices does not match.  newt/rotations.py:308-338. -/
noncomputable def rotate_qlm_Ds {LMax : ℕ} (q : Mom LMax) (ds : List (ℤ → ℤ → ℂ)) (conj_trans : Bool) :
    Mom LMax :=
  if ds.length = LMax + 1 then
    applyD (fun k a b => if conj_trans then (starRingEnd ℂ) (ds.getD k 0 b a) else ds.getD k 0 a b) q
  else q

/-- `rotate_qlm_Ds_right(qlm, ds, conj_trans)`.  newt/rotations.py:341-372. -/
noncomputable def rotate_qlm_Ds_right {LMax : ℕ} (q : Mom LMax) (ds : List (ℤ → ℤ → ℂ))
    (conj_trans : Bool) : Mom LMax :=
  if ds.length = LMax + 1 then
    applyD (fun k a b => if conj_trans then (starRingEnd ℂ) (ds.getD k 0 a b) else ds.getD k 0 b a) q
  else q

/-- `Dlmn(l, m, n, alpha, beta, gamma)`: entry `(n, m)`.  newt/rotations.py:375-415. -/
noncomputable def Dlmn (l : ℕ) (m n : ℤ) (alpha beta gamma : ℝ) : ℂ :=
  let kmin := max (m - n) 0
  let kmax := min (l + m) (l - n)
  let s : ℝ := ∑ k ∈ Finset.Icc kmin kmax,
    (-1 : ℝ) ^ k * Real.cos (beta / 2) ^ (2 * l + m - n - 2 * k) * Real.sin (beta / 2) ^ (n - m + 2 * k)
      / (spFactorial k * spFactorial (l + m - k)) / (spFactorial (l - n - k) * spFactorial (n - m + k))
  (s : ℂ) * (Complex.exp (-Complex.I * (alpha * n + gamma * m)) * (-1) ^ (n - m))
    * (Real.sqrt (spFactorial (l - m) * spFactorial (l + m)) : ℝ)
    * (Real.sqrt (spFactorial (l - n) * spFactorial (l + n)) : ℝ)

/-- `Dl(l, alpha, beta, gamma)[l+n, l+m]`.  newt/rotations.py:418-452. -/
noncomputable def Dl (l : ℕ) (alpha beta gamma : ℝ) : ℤ → ℤ → ℂ :=
  fun n m => Dlmn l m n alpha beta gamma

end Newt
