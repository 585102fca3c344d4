import Verif.Model.Glib
import Verif.Model.Extern
import Verif.Model.Moments

/-!
# Model of `newt/pg2Multi.py` (multipole moments of point arrays)

Each moment routine fills the cells `[n, l+m]`, `m >= 0`, of a zero array once and then applies
`Mom.fillNeg`.  `none` = the call raises (IndexError or a broadcasting ValueError).
-/

namespace Newt

/-- `r = np.sqrt(x**2 + y**2 + z**2)` per row.  newt/pg2Multi.py:30, 61, 94, 126, 171, 214. -/
noncomputable def rOf (p : Pt) : ℝ := Real.sqrt (p.pos 0 ^ 2 + p.pos 1 ^ 2 + p.pos 2 ^ 2)

/-- `theta = np.arccos(z/r)` for one row with `r != 0`.  newt/pg2Multi.py:32, 65, 96, 128. -/
noncomputable def thetaOf (p : Pt) : ℝ := Real.arccos (p.pos 2 / rOf p)

/-- `phi = np.arctan2(y, x) % (2*np.pi)`.  newt/pg2Multi.py:33, 66, 97, 129. -/
noncomputable def phiOf (p : Pt) : ℝ := pyMod (arctan2 (p.pos 1) (p.pos 0)) (2 * Real.pi)

open Classical in
/-- `r[i] != 0`.  newt/pg2Multi.py:31, 95, 127, 215. -/
noncomputable def isOff (A : PtArray) (i : ℕ) : Bool := decide (∃ p, A[i]? = some p ∧ rOf p ≠ 0)

/-- `rids = np.where(r != 0)[0]`.  newt/pg2Multi.py:31, 95, 127, 215. -/
noncomputable def ridsOf (A : PtArray) : List ℕ := (List.range A.length).filter (isOff A)

/-- `a[rids]`: numpy integer-array indexing of an array of values; IndexError (`none`) if some
index is out of bounds. -/
def takeIds {α : Type} (a : List α) (rids : List ℕ) : Option (List α) :=
  rids.mapM fun i => a[i]?

/-- `massArray[rids]` (always in bounds). -/
noncomputable def offOrigin (A : PtArray) : PtArray := (takeIds A (ridsOf A)).getD []

/-- The angle arrays `(phi, theta)` computed from `massArray[rids]`, of length `len(rids)`.
newt/pg2Multi.py:128-129, 216-217. -/
noncomputable def anglesOf (A : PtArray) : List (ℝ × ℝ) :=
  (offOrigin A).map fun p => (phiOf p, thetaOf p)

/-- The sum over rows `sum(conj(sph_harm(m, n, phi, theta)) * mass * w(r))`.
newt/pg2Multi.py:138-140, 227-229. -/
noncomputable def sumConjHarm (w : ℝ → ℝ) (m : ℤ) (n : ℕ) (rows : PtArray) (ang : List (ℝ × ℝ)) : ℂ :=
  (List.zipWith (fun (p : Pt) (a : ℝ × ℝ) =>
    (starRingEnd ℂ) (sphHarm m n a.1 a.2) * ((p.mass * w (rOf p) : ℝ) : ℂ)) rows ang).sum

/-- `qmoments(l, massArray)`.  newt/pg2Multi.py:107-148.  The expressions `phi[rids]` and
`theta[rids]` (line 138) index the already filtered arrays again; they are only evaluated when
`l >= 1`. -/
noncomputable def qmoments (L : ℕ) (A : PtArray) : Option (Mom L) :=
  let q00 : ℂ := (A.map fun p => ((p.mass / Real.sqrt (4 * Real.pi) : ℝ) : ℂ)).sum
  let build (ang : List (ℝ × ℝ)) : Mom L := (Mom.ofFn L fun n m =>
    if n = 0 then (if m = 0 then q00 else 0)
    else if 0 ≤ m ∧ m ≤ n then sumConjHarm (fun r => r ^ n) m n (offOrigin A) ang else 0).fillNeg
  if L = 0 then some (build []) else (takeIds (anglesOf A) (ridsOf A)).map build

/-- `qmoment(l, m, massArray)`.  newt/pg2Multi.py:11-39.  The product of the length-`N` array
`mass*r**l` with the length-`len(rids)` array of harmonics broadcasts only if the lengths agree or
one of them is 1; otherwise numpy raises (`none`). -/
noncomputable def qmoment (l : ℕ) (m : ℤ) (A : PtArray) : Option ℂ :=
  if l = 0 then some ((A.map fun p => ((p.mass / Real.sqrt (4 * Real.pi) : ℝ) : ℂ)).sum)
  else
    let w : List ℂ := A.map fun p => ((p.mass * rOf p ^ l : ℝ) : ℂ)
    let y : List ℂ := (anglesOf A).map fun a => (starRingEnd ℂ) (sphHarm m l a.1 a.2)
    if w.length = y.length then some (List.zipWith (· * ·) w y).sum
    else match w, y with
      | _, [y0] => some ((w.map fun a => a * y0).sum)
      | [w0], _ => some ((y.map fun b => w0 * b).sum)
      | _, _ => none

open Classical in
/-- `(r == 0).any()`.  newt/pg2Multi.py:62, 172. -/
def anyAtOrigin (A : PtArray) : Prop := ∃ p ∈ A, rOf p = 0

/-- One row's term of the outer moments, `mass*sph_harm(m, l, phi, theta)/r**(l+1)`.
newt/pg2Multi.py:67, 180. -/
noncomputable def outerTerm (l : ℕ) (m : ℤ) (p : Pt) : ℂ :=
  (p.mass : ℂ) * sphHarm m l (phiOf p) (thetaOf p) / ((rOf p ^ (l + 1) : ℝ) : ℂ)

open Classical in
/-- `Qmomentb(l, m, massArray)`.  newt/pg2Multi.py:42-69. -/
noncomputable def Qmomentb (l : ℕ) (m : ℤ) (A : PtArray) : ℂ :=
  if anyAtOrigin A then 0 else (A.map (outerTerm l m)).sum

open Classical in
/-- `Qmomentsb(l, massArray)`.  newt/pg2Multi.py:151-189. -/
noncomputable def Qmomentsb (L : ℕ) (A : PtArray) : Mom L :=
  if anyAtOrigin A then Mom.ofFn L fun _ _ => 0
  else (Mom.ofFn L fun n m => if 0 ≤ m ∧ m ≤ n then (A.map (outerTerm n m)).sum else 0).fillNeg

/-- `imoment(l, m, lmbd, massArray)`, `iN l x` standing for `sp.spherical_in(l, x)`.
newt/pg2Multi.py:72-104. -/
noncomputable def imoment (iN : ℕ → ℝ → ℝ) (l : ℕ) (m : ℤ) (lmbd : ℝ) (A : PtArray) : Option ℂ :=
  let w : List ℂ := A.map fun p => ((p.mass * iN l (rOf p / lmbd) : ℝ) : ℂ)
  if l = 0 then some ((w.map fun a => a / ((Real.sqrt (4 * Real.pi) : ℝ) : ℂ)).sum)
  else
    let y : List ℂ := (anglesOf A).map fun a => (starRingEnd ℂ) (sphHarm m l a.1 a.2)
    if w.length = y.length then some (List.zipWith (· * ·) w y).sum
    else match w, y with
      | _, [y0] => some ((w.map fun a => a * y0).sum)
      | [w0], _ => some ((y.map fun b => w0 * b).sum)
      | _, _ => none

/-- `imoments(l, lmbd, massArray)`.  newt/pg2Multi.py:192-237.  Line 225 evaluates
`spherical_in(l, ...)` with the maximum degree `l`, not the running degree `n`. -/
noncomputable def imoments (iN : ℕ → ℝ → ℝ) (L : ℕ) (lmbd : ℝ) (A : PtArray) : Option (Mom L) :=
  let i00 : ℂ := (A.map fun p =>
    ((p.mass * iN 0 (rOf p / lmbd) / Real.sqrt (4 * Real.pi) : ℝ) : ℂ)).sum
  let build (ang : List (ℝ × ℝ)) : Mom L := (Mom.ofFn L fun n m =>
    if n = 0 then (if m = 0 then i00 else 0)
    else if 0 ≤ m ∧ m ≤ n then
      sumConjHarm (fun r => iN L (r / lmbd)) m n (offOrigin A) ang else 0).fillNeg
  if L = 0 then some (build []) else (takeIds (anglesOf A) (ridsOf A)).map build

end Newt
