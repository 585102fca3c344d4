import Verif.Model.WigFloat

/-!
# `rotate_H_recurs`, `wignerDl` and `rotate_qlm` in floating point arithmetic

The recursive Wigner matrices of newt/rotations.py with every operation replaced by what a floating point arithmetic may return (see
Model/Pg2Float.lean and Model/MultipoleFloat.lean).  A run is a relation.  As in Model/Rotations.lean `H[n][n+i, n+j]` is `H i j`.

Simplification: the range of exponents is unbounded (no overflow, no underflow; see Model/Range.lean for those), the sign of zero is not modelled;
halving, products with the integers 1 and -1 and arithmetic of integers are exact.  Every cell of the wedge is assigned once and read only
afterwards, so the assignments are stated as relations between the final values.  Factors that the program computes once per loop may here differ
from cell to cell (which allows more runs).  `pi0` is the number `np.pi`.
-/

namespace Newt.Flt

/-- What `sp.lpmn(., ., x)[0][m, k]` may return: `leg m k x p`. -/
abbrev Leg := ℕ → ℕ → ℝ → ℝ → Prop

/-- `dnm(n, m)`.  newt/rotations.py:118-122. -/
def Dnm (a : Arith) (n m : ℤ) (d : ℝ) : Prop := ∃ r, a.op (Real.sqrt ((n - m) * (n + m + 1))) r ∧ d = rsign m * r / 2

/-- `bnm(n, m)`.  newt/rotations.py:125-129. -/
def Bnm (a : Arith) (n m : ℤ) (b : ℝ) : Prop :=
  ∃ x r, a.op ((n - m - 1) * (n - m) / ((2 * n + 1) * (2 * n - 1))) x ∧ a.op (Real.sqrt x) r ∧ b = rsign m * r

/-- `anm(n, m)`.  newt/rotations.py:132-139. -/
def Anm (a : Arith) (n m : ℤ) (r : ℝ) : Prop := ∃ x, a.op ((n + 1 + m) * (n + 1 - m) / ((2 * n + 1) * (2 * n + 3))) x ∧ a.op (Real.sqrt x) r

/-- `(-1)**m*np.sqrt(rfac(k-m, k+m))*lps[m, k]`.  newt/rotations.py:47, 142-152. -/
def Start (a : Arith) (leg : Leg) (k m : ℕ) (cb h : ℝ) : Prop :=
  ∃ g g' d x r p, a.lib (gammaln (k - m + 1)) g ∧ a.lib (gammaln (k + m + 1)) g' ∧ a.op (g - g') d ∧ a.lib (Real.exp d) x ∧ a.op (Real.sqrt x) r ∧
    leg m k cb p ∧ a.op ((-1) ^ m * r * p) h

/-- Step 3: the cell `(1, m)` of degree `n` from the cells `(0, m+1)`, `(0, m-1)` and `(0, m)` of degree `n+1`.  newt/rotations.py:52-59. -/
def Row1 (a : Arith) (n : ℕ) (m : ℤ) (cb sb hp hm h v : ℝ) : Prop :=
  ∃ bM bP c b x y t x' y' t' z t'' s s', Bnm a (n + 1) (-m - 1) bM ∧ Bnm a (n + 1) (m - 1) bP ∧ Anm a n m c ∧ Bnm a (n + 1) 0 b ∧
    a.op (1 - cb) x ∧ a.op (bM * x) y ∧ a.op (y / 2 * hp) t ∧ a.op (1 + cb) x' ∧ a.op (bP * x') y' ∧ a.op (y' / 2 * hm) t' ∧
    a.op (c * sb) z ∧ a.op (z * h) t'' ∧ a.op (t - t') s ∧ a.op (s - t'') s' ∧ a.op (s' / b) v

/-- `(fac*h1 + dnms*h2 - dnmsp*h3)/fac2` in step 5: the cell `(-mp-1, m)` for `m < n`.  newt/rotations.py:65-74, 80-86. -/
def Step5 (a : Arith) (n : ℕ) (mp m : ℤ) (h1 h2 h3 v : ℝ) : Prop :=
  ∃ f g d d' t1 t2 t3 s s', Dnm a n (-mp) f ∧ Dnm a n (-mp - 1) g ∧ Dnm a n (m - 1) d ∧ Dnm a n m d' ∧ a.op (f * h1) t1 ∧ a.op (d * h2) t2 ∧
    a.op (d' * h3) t3 ∧ a.op (t1 + t2) s ∧ a.op (s - t3) s' ∧ a.op (s' / g) v

/-- The cell `(-mp-1, n)`.  newt/rotations.py:76-77, 88-89. -/
def End5 (a : Arith) (n : ℕ) (mp : ℤ) (h1 h2 v : ℝ) : Prop :=
  ∃ f g d t1 t2 s, Dnm a n (-mp) f ∧ Dnm a n (-mp - 1) g ∧ Dnm a n (n - 1) d ∧ a.op (f * h1) t1 ∧ a.op (d * h2) t2 ∧ a.op (t1 + t2) s ∧ a.op (s / g) v

/-- Step 4: the cell `(mp+1, m)` for `m < n`.  newt/rotations.py:91-96. -/
def Step4 (a : Arith) (n : ℕ) (mp m : ℤ) (h1 h2 h3 v : ℝ) : Prop :=
  ∃ f g d d' t1 t2 t3 s s', Dnm a n (mp - 1) f ∧ Dnm a n mp g ∧ Dnm a n (m - 1) d ∧ Dnm a n m d' ∧ a.op (f * h1) t1 ∧ a.op (d * h2) t2 ∧
    a.op (d' * h3) t3 ∧ a.op (t1 - t2) s ∧ a.op (s + t3) s' ∧ a.op (s' / g) v

/-- The cell `(mp+1, n)`.  newt/rotations.py:98-99. -/
def End4 (a : Arith) (n : ℕ) (mp : ℤ) (h1 h2 v : ℝ) : Prop :=
  ∃ f g d t1 t2 s, Dnm a n (mp - 1) f ∧ Dnm a n mp g ∧ Dnm a n (n - 1) d ∧ a.op (f * h1) t1 ∧ a.op (d * h2) t2 ∧ a.op (t1 - t2) s ∧ a.op (s / g) v

/-- `H[n]` before the copies, given the rows `row` and `up` of order 0 of the degrees `n` and `n+1`.  newt/rotations.py:46-99. -/
structure Wedge (a : Arith) (n : ℕ) (cb sb : ℝ) (row up : ℕ → ℝ) (W : CMat) : Prop where
  zero : ∀ i j : ℤ, ¬((i.natAbs : ℤ) ≤ j ∧ j ≤ n) → W i j = 0
  row0 : ∀ m : ℕ, m ≤ n → W 0 m = row m
  row1 : ∀ m : ℕ, 1 ≤ m → m ≤ n → Row1 a n m cb sb (up (m + 1)) (up (m - 1)) (up m) (W 1 m)
  step5 : ∀ mp m : ℤ, 0 ≤ mp → mp < n → mp + 1 ≤ m → m < n → Step5 a n mp m (W (-mp + 1) m) (W (-mp) (m - 1)) (W (-mp) (m + 1)) (W (-mp - 1) m)
  end5 : ∀ mp : ℤ, 0 ≤ mp → mp < n → End5 a n mp (W (-mp + 1) n) (W (-mp) (n - 1)) (W (-mp - 1) n)
  step4 : ∀ mp m : ℤ, 1 ≤ mp → mp < n → mp + 1 ≤ m → m < n → Step4 a n mp m (W (mp - 1) m) (W mp (m - 1)) (W mp (m + 1)) (W (mp + 1) m)
  end4 : ∀ mp : ℤ, 1 ≤ mp → mp < n → End4 a n mp (W (mp - 1) n) (W mp (n - 1)) (W (mp + 1) n)

/-- `copy_tri(M) = M + np.transpose(M)-np.diag(np.diag(M))`.  newt/rotations.py:110-115. -/
def CopyTri (a : Arith) (n : ℕ) (M M' : CMat) : Prop :=
  ∀ i j : ℤ, i.natAbs ≤ n → j.natAbs ≤ n → ∃ s, a.op (M i j + M j i) s ∧ a.op (s - if i = j then M i i else 0) (M' i j)

/-- The two copies.  newt/rotations.py:103-105. -/
def Copies (a : Arith) (n : ℕ) (W H : CMat) : Prop := ∃ M M', CopyTri a n W M ∧ CopyTri a n (rot90inv M) M' ∧ H = rot90 M'

/-- `rotate_H_recurs(p, beta)` for `p >= 1` may return the matrices `H 0, ..., H p`.  newt/rotations.py:36-107. -/
def rotate_H_recurs (a : Arith) (leg : Leg) (p : ℕ) (beta : ℝ) (H : ℕ → CMat) : Prop :=
  p ≠ 0 ∧ ∃ (cb sb : ℝ) (row : ℕ → ℕ → ℝ), a.lib (Real.cos beta) cb ∧ a.lib (Real.sin beta) sb ∧
    (∀ k m : ℕ, k ≤ p + 1 → m ≤ k → Start a leg k m cb (row k m)) ∧ H 0 0 0 = row 0 0 ∧
    ∀ n, 1 ≤ n → n ≤ p → ∃ W, Wedge a n cb sb (row n) (row (n + 1)) W ∧ Copies a n W (H n)

/-- `np.exp(-1j*m*alpha)`.  newt/rotations.py:264-265. -/
def ExpI (a : Arith) (m : ℤ) (alpha : ℝ) (E : ℂ) : Prop := ∃ y, a.op (m * alpha) y ∧ a.lib (Real.cos y) E.re ∧ a.lib (-Real.sin y) E.im

/-- The matrices of `wignerDl` for the reduced angle `b` and the factors `fac = s**(|m|+|m'|)`.  newt/rotations.py:263-272. -/
def wignerMat (a : Arith) (leg : Leg) (LMax : ℕ) (alpha b gamma s : ℝ) (D : ℕ → ℤ → ℤ → ℂ) : Prop :=
  ∃ (H : ℕ → CMat), rotate_H_recurs a leg LMax b H ∧ ∀ (l : ℕ) (i j : ℤ), l ≤ LMax → i.natAbs ≤ l → j.natAbs ≤ l →
    ∃ E F z, ExpI a i alpha E ∧ ExpI a j gamma F ∧ CMul a E F z ∧ CMul a (H l i j : ℂ) ((epsm i * epsm (-j) * (s ^ i.natAbs * s ^ j.natAbs) : ℝ) * z) (D l i j)

/-- The integer part, towards zero. -/
noncomputable def trunc (x : ℝ) : ℤ := if 0 ≤ x then ⌊x⌋ else ⌈x⌉

/-- `x % w` for floats and `w > 0`: the remainder of C's `fmod`, which is exact, and if it is negative, the rounded sum of it and `w`. -/
def PyMod (a : Arith) (x w r : ℝ) : Prop := if x - w * trunc (x / w) < 0 then a.op (x - w * trunc (x / w) + w) r else r = x - w * trunc (x / w)

/-- The reduction of the angle: `beta = beta % (2*np.pi)`, `if beta > np.pi: beta = 2*np.pi - beta` with factors `(-1)**|m|`, else factors 1.
newt/rotations.py:254-262. -/
def Reduce (a : Arith) (pi0 beta b s : ℝ) : Prop :=
  ∃ w r, a.op (2 * pi0) w ∧ PyMod a beta w r ∧ if pi0 < r then a.op (w - r) b ∧ s = -1 else b = r ∧ s = 1

/-- `wignerDl(LMax, alpha, beta, gamma)` for `LMax >= 1` may return the matrices `D 0, ..., D LMax`.  newt/rotations.py:254-272. -/
def wignerDl (a : Arith) (leg : Leg) (pi0 : ℝ) (LMax : ℕ) (alpha beta gamma : ℝ) (D : ℕ → ℤ → ℤ → ℂ) : Prop :=
  ∃ b s, Reduce a pi0 beta b s ∧ wignerMat a leg LMax alpha b gamma s D

/-- `rotate_qlm(qlm, alpha, beta, gamma)` may return `q'`.  newt/rotations.py:299-305. -/
def rotate_qlm (a : Arith) (leg : Leg) (pi0 : ℝ) {LMax : ℕ} (q : Mom LMax) (alpha beta gamma : ℝ) (q' : Mom LMax) : Prop :=
  ∃ (D : ℕ → ℤ → ℤ → ℂ) (f : ℕ → ℤ → ℂ), wignerDl a leg pi0 (LMax + 1) alpha beta gamma D ∧
    (∀ (l : ℕ) (m : ℤ), 1 ≤ l → l ≤ LMax → m.natAbs ≤ l → CDot a l (fun n => D l m n) (fun n => q.get l n) (f l m)) ∧
    q' = Mom.ofFn LMax fun l m => if 1 ≤ l ∧ m.natAbs ≤ l then f l m else q.get l m

end Newt.Flt
