import Verif.Model.Translations
import Verif.Model.Rotations

/-!
# The range of double precision numbers

`newt/clebschGordan.py`, `newt/translations.py`, `newt/rotations.py` and `newt/translationRecurs.py` compute with factorials.  Here the same
expressions are evaluated with numbers that can overflow to an infinity, turn into NaN, or underflow to zero.

Simplifications: a number that neither overflows nor underflows is exact (rounding, including the reduced precision of subnormal numbers, is
ignored); zeros have no sign; sums of logarithms (`gammaln`) are exact real numbers, they are never large.
-/

namespace Newt.Rng

open Classical

/-- A double: a finite number, an infinity (`neg` = minus), or NaN. -/
inductive FV where
  | fin (x : ℝ)
  | inf (neg : Bool)
  | nan

/-- The smallest magnitude that is rounded to infinity (IEEE 754, round to nearest). -/
noncomputable def OVER : ℝ := 2 ^ 1024 - 2 ^ 970

/-- The largest magnitude that is rounded to zero. -/
noncomputable def UNDER : ℝ := 1 / 2 ^ 1075

/-- The stored value of an exact result. -/
noncomputable def rnd (x : ℝ) : FV := if OVER ≤ |x| then .inf (decide (x < 0)) else if |x| ≤ UNDER then .fin 0 else .fin x

/-- IEEE multiplication. -/
noncomputable def mul : FV → FV → FV
  | .fin x, .fin y => rnd (x * y)
  | .fin x, .inf s => if x = 0 then .nan else .inf (xor s (decide (x < 0)))
  | .inf s, .fin x => if x = 0 then .nan else .inf (xor s (decide (x < 0)))
  | .inf s, .inf t => .inf (xor s t)
  | .nan, _ => .nan
  | _, .nan => .nan

/-- IEEE addition (which never underflows). -/
noncomputable def add : FV → FV → FV
  | .fin x, .fin y => if OVER ≤ |x + y| then .inf (decide (x + y < 0)) else .fin (x + y)
  | .fin _, .inf s => .inf s
  | .inf s, .fin _ => .inf s
  | .inf s, .inf t => if s = t then .inf s else .nan
  | .nan, _ => .nan
  | _, .nan => .nan

/-- numpy division. -/
noncomputable def div : FV → FV → FV
  | .fin x, .fin y => if y = 0 then (if x = 0 then .nan else .inf (decide (x < 0))) else rnd (x / y)
  | .fin _, .inf _ => .fin 0
  | .inf s, .fin y => .inf (xor s (decide (y < 0)))
  | .inf _, .inf _ => .nan
  | .nan, _ => .nan
  | _, .nan => .nan

/-- `np.sqrt` (which neither overflows nor underflows). -/
noncomputable def sqrt : FV → FV
  | .fin x => if x < 0 then .nan else .fin (Real.sqrt x)
  | .inf s => if s then .nan else .inf false
  | .nan => .nan

/-- `np.exp` of a finite number. -/
noncomputable def exp (x : ℝ) : FV := rnd (Real.exp x)

/-- `x = 0; for t in l: x += t`. -/
noncomputable def sum (l : List FV) : FV := l.foldl add (.fin 0)

/-- The value, if it is a finite number. -/
def val? : FV → Option ℝ
  | .fin x => some x
  | _ => none

/-- `range(kmin, kmax+1)`. -/
def irange (a b : ℤ) : List ℤ := (List.range (b + 1 - a).toNat).map fun i : ℕ => a + i

/-! ## clebschGordan.py -/

/-- The body of `cgCoeff` after the checks and the sign flip; `delta` is the factor `(M == m1+m2)`, with its sign.
newt/clebschGordan.py:58-76. -/
noncomputable def cgBody (delta : ℝ) (j1 j2 m1 m2 J M : ℤ) : FV :=
  let kmin := max (max 0 (j2 - m1 - J)) (j1 + m2 - J)
  let kmax := min (min (j1 + j2 - J) (j1 - m1)) (j2 + m2)
  let fac1 := sqrt (mul (.fin (2 * J + 1)) (exp (gammaln (J + j1 - j2 + 1) + gammaln (J - j1 + j2 + 1)
      + (gammaln (j1 + j2 - J + 1) - gammaln (j1 + j2 + J + 2)))))
  let fac2 := sqrt (exp (gammaln (J + M + 1) + gammaln (J - M + 1)
      + (gammaln (j1 - m1 + 1) + gammaln (j1 + m1 + 1)) + (gammaln (j2 - m2 + 1) + gammaln (j2 + m2 + 1))))
  let sumCG := sum ((irange kmin kmax).map fun k : ℤ => div (.fin ((-1 : ℝ) ^ k)) (exp
      (gammaln (k + 1) + gammaln (j1 + j2 - J - k + 1) + (gammaln (j1 - m1 - k + 1) + gammaln (j2 + m2 - k + 1))
        + (gammaln (J - j2 + m1 + k + 1) + gammaln (J - j1 - m2 + k + 1)))))
  mul (mul (mul (.fin delta) fac1) fac2) sumCG

/-- `cgCoeff(j1, j2, m1, m2, J, M)`.  newt/clebschGordan.py:11-77. -/
noncomputable def cgCoeff (j1 j2 m1 m2 J M : ℤ) : FV :=
  if j1 < |m1| ∨ j2 < |m2| ∨ J < |M| then .fin 0
  else if J > j1 + j2 ∨ J < |j1 - j2| then .fin 0
  else
    let delta : ℝ := if M = m1 + m2 then 1 else 0
    if M < 0 then cgBody (delta * (-1) ^ (J - j1 - j2)) j1 j2 (-m1) (-m2) J (-M) else cgBody delta j1 j2 m1 m2 J M

/-! ## translations.py

Only the Clebsch-Gordan coefficients are followed through the range of doubles; the moments, harmonics and powers of the distance are exact.
A coefficient that is not finite makes the entry it is added to infinite or NaN for good (`none`). -/

/-- A sum of complex terms, `none` if one of them is not finite. -/
noncomputable def csum (l : List (Option ℂ)) : Option ℂ := (l.mapM id).map List.sum

/-- The last lines of the routines: `q += conj(fliplr(q))*(-1)**abs(ms); q[:, L] /= 2`.  newt/translations.py:66-70, 127-131. -/
noncomputable def fillNeg (f : ℕ → ℤ → Option ℂ) (l : ℕ) (m : ℤ) : Option ℂ :=
  (f l m).bind fun a => (f l (-m)).map fun b =>
    let v := a + (starRingEnd ℂ) b * (-1) ^ m.natAbs
    if m = 0 then v / 2 else v

/-- Entry `[l, LMax+m]` of `translate_qlm(qlm, rPrime)`.  newt/translations.py:12-71. -/
noncomputable def translate_qlm {LMax : ℕ} (q : Mom LMax) (d : V3) : ℕ → ℤ → Option ℂ :=
  let rP := rPOf d
  if rP = 0 then fun L M => some (q.get L M)
  else
    let ylmS : ℕ → ℤ → ℂ := fun l m => (starRingEnd ℂ) (sphHarm m l (phiPOf d) (thetaPOf d))
    fillNeg fun L M =>
      if 0 ≤ M ∧ M ≤ L then
        csum ((List.range (L + 1)).flatMap fun l : ℕ => (irange (-(l : ℤ)) l).map fun m : ℤ =>
          let lP := L - l
          let mP := M - m
          let fac := Real.sqrt (4 * Real.pi *
            Real.exp (gammaln (2 * L + 2) - gammaln (2 * lP + 2 : ℕ) - gammaln (2 * l + 2))) * rP ^ lP
          if |mP| ≤ lP then (val? (cgCoeff lP l mP m L M)).map fun c => ((fac * c : ℝ) : ℂ) * ylmS lP mP * q.get l m
          else some 0)
      else some 0

/-- Entry `[l, LMax+m]` of `translate_Qlmb(Qlm, rPrime)`.  newt/translations.py:74-132. -/
noncomputable def translate_Qlmb {LMax : ℕ} (Q : Mom LMax) (d : V3) : ℕ → ℤ → Option ℂ :=
  let rP := rPOf d
  if rP = 0 then fun L M => some (Q.get L M)
  else
    let ylmS : ℕ → ℤ → ℂ := fun l m => sphHarm m l (phiPOf d) (thetaPOf d)
    fillNeg fun L M =>
      if 0 ≤ M ∧ M ≤ L then
        csum ((List.range (LMax + 1 - L)).flatMap fun i : ℕ => (irange (-((L + i : ℕ) : ℤ)) (L + i : ℕ)).map fun m : ℤ =>
          let l := L + i
          let lP := l - L
          let mP := M - m
          let fac := Real.sqrt (4 * Real.pi *
            Real.exp (gammaln (2 * l + 1 : ℕ) - gammaln (2 * lP + 2 : ℕ) - gammaln (2 * L + 1))) * rP ^ lP
          if |mP| ≤ lP ∧ lP ≤ LMax then (val? (cgCoeff lP l mP m L M)).map fun c => ((fac * c : ℝ) : ℂ) * ylmS lP mP * Q.get l m
          else some 0)
      else some 0

/-- Entry `[l, LMax+m]` of `translate_q2Q(qlm, rPrime)` for a non-zero vector.  newt/translations.py:135-187. -/
noncomputable def translate_q2Q {LMax : ℕ} (q : Mom LMax) (d : V3) : ℕ → ℤ → Option ℂ :=
  let rP := rPOf d
  let ylmS : ℕ → ℤ → ℂ := fun l m => sphHarm m l (phiPOf d) (thetaPOf d)
  fun L M =>
    if |M| ≤ L then
      csum ((List.range (LMax + 1)).flatMap fun lP : ℕ => (irange (-(lP : ℤ)) lP).map fun mP : ℤ =>
        let l := L + lP
        let m := M + mP
        let fac := Real.sqrt (4 * Real.pi *
          Real.exp (gammaln (2 * l + 1 : ℕ) - gammaln (2 * lP + 2) - gammaln (2 * L + 1))) / rP ^ (l + 1)
        if |m| ≤ l then
          (val? (cgCoeff lP l (-mP) m L M)).map fun c => ((fac * c * (-1) ^ mP : ℝ) : ℂ) * ylmS l m * q.get lP mP
        else some 0)
    else some 0

/-! ## rotations.py -/

/-- `sp.factorial(n)`: infinite beyond 170.  -/
noncomputable def factorial (n : ℤ) : FV := rnd (spFactorial n)

/-- `Dlmn(l, m, n, 0, beta, 0)` (the phase factor, of modulus one, is left out; powers of the cosine and sine are exact).
newt/rotations.py:402-415. -/
noncomputable def Dlmn (l m n : ℤ) (beta : ℝ) : FV :=
  let Dlnm := sum ((irange (max (m - n) 0) (min (l + m) (l - n))).map fun k : ℤ =>
    let v := rnd ((-1) ^ k * Real.cos (beta / 2) ^ (2 * l + m - n - 2 * k) * Real.sin (beta / 2) ^ (n - m + 2 * k))
    div (div v (mul (factorial k) (factorial (l + m - k)))) (mul (factorial (l - n - k)) (factorial (n - m + k))))
  mul (mul (mul Dlnm (.fin ((-1) ^ (n - m)))) (sqrt (mul (factorial (l - m)) (factorial (l + m)))))
    (sqrt (mul (factorial (l - n)) (factorial (l + n))))

/-- The entry `Hk[k, k+m]` of step 2 of `rotate_H_recurs`; the Legendre function itself is exact.  newt/rotations.py:42-48, 142-152. -/
noncomputable def hInit (k : ℕ) (beta : ℝ) (m : ℕ) : FV :=
  mul (mul (.fin ((-1) ^ m)) (sqrt (exp (gammaln (k - m + 1) - gammaln (k + m + 1))))) (.fin (lpmv m k (Real.cos beta)))

/-! ## translationRecurs.py -/

/-- `alphanm(n, m)`.  newt/translationRecurs.py:233-238. -/
noncomputable def alphanm (n m : ℤ) : FV :=
  mul (.fin ((-1) ^ n)) (sqrt (div (.fin 1) (mul (mul (.fin (2 * n + 1)) (factorial (n - m))) (factorial (n + m)))))

/-- `betanm(n, m)`.  newt/translationRecurs.py:241-246. -/
noncomputable def betanm (n m : ℤ) : FV :=
  sqrt (div (mul (factorial (n - m)) (factorial (n + m))) (.fin (2 * n + 1)))

/-- An entry of the diagonal of the matrix of order `m` of `transl_newt_z_RR`: `cols[0]*(1/fac)*fac`, with `cols[0] = 1`.
newt/translationRecurs.py:158-168. -/
noncomputable def diagRR (n m : ℤ) : FV := mul (.fin 1) (mul (div (.fin 1) (alphanm n m)) (alphanm n m))

/-- The same for `transl_newt_z_SS`.  newt/translationRecurs.py:189-199. -/
noncomputable def diagSS (n m : ℤ) : FV := mul (.fin 1) (mul (div (.fin 1) (betanm n m)) (betanm n m))

end Newt.Rng
