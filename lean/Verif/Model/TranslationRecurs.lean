import Verif.Model.Translations
import Verif.Model.Rotations
import Mathlib.Data.Real.Sign

/-!
# Model of `newt/translationRecurs.py` (coaxial translation matrices, "trr")

The Yukawa recursions `transl_yuk_z_SR_recurs`, `transl_yuk_z_RR_recurs` (lines 13-136) are
modelled in `Model/TranslYuk`.  A real matrix is a function of its two 0-based indices.
-/

namespace Newt.trr

/-- `alphanm(n, m)`.  newt/translationRecurs.py:233-238. -/
noncomputable def alphanm (n m : ℤ) : ℝ :=
  (-1) ^ n * Real.sqrt (1 / ((2 * n + 1) * spFactorial (n - m) * spFactorial (n + m)))

/-- `betanm(n, m)`.  newt/translationRecurs.py:241-246. -/
noncomputable def betanm (n m : ℤ) : ℝ :=
  Real.sqrt (spFactorial (n - m) * spFactorial (n + m) / (2 * n + 1))

/-- `scipy.linalg.toeplitz(c, r)`: `c` is the first column, `r[1:]` the rest of the first row. -/
noncomputable def toeplitz (c r : List ℝ) : ℕ → ℕ → ℝ :=
  fun i j => if j ≤ i then c.getD (i - j) 0 else r.getD (j - i) 0

/-- `scipy.linalg.hankel(c, r)`: `c` is the first column, `r` the last row (`r[0]` is not used). -/
noncomputable def hankel (c r : List ℝ) : ℕ → ℕ → ℝ :=
  fun i j => if i + j < c.length then c.getD (i + j) 0 else r.getD (i + j - c.length + 1) 0

/-- `transl_newt_z_RR(LMax, dr)` for `dr != 0` (for `dr = 0` numpy gives NaN from `0*log(0)`; every
caller in the package returns before).  newt/translationRecurs.py:139-168. -/
noncomputable def transl_newt_z_RR (LMax : ℕ) (dr : ℝ) : List (ℕ → ℕ → ℝ) :=
  let cols := (List.range (LMax + 1)).map fun lp : ℕ =>
    (-Real.sign dr) ^ lp * Real.exp (lp * Real.log |dr| - gammaln (lp + 1))
  let rows := cols.getD 0 0 :: List.replicate LMax 0
  (List.range (LMax + 1)).map fun m =>
    fun i j => toeplitz (cols.take (LMax + 1 - m)) (rows.take (LMax + 1 - m)) i j
      * (1 / alphanm (m + i) m * alphanm (m + j) m)

/-- `transl_newt_z_SS(LMax, dr)` for `dr != 0`.  newt/translationRecurs.py:171-199. -/
noncomputable def transl_newt_z_SS (LMax : ℕ) (dr : ℝ) : List (ℕ → ℕ → ℝ) :=
  let rows := (List.range (LMax + 1)).map fun lp : ℕ =>
    (-Real.sign dr) ^ lp * Real.exp (lp * Real.log |dr| - gammaln (lp + 1))
  let cols := rows.getD 0 0 :: List.replicate LMax 0
  (List.range (LMax + 1)).map fun m =>
    fun i j => toeplitz (cols.take (LMax + 1 - m)) (rows.take (LMax + 1 - m)) i j
      * (1 / betanm (m + i) m * betanm (m + j) m)

/-- `transl_newt_z_SR(LMax, dr)` for `dr != 0`.  newt/translationRecurs.py:202-230. -/
noncomputable def transl_newt_z_SR (LMax : ℕ) (dr : ℝ) : List (ℕ → ℕ → ℝ) :=
  let svals := (List.range (2 * LMax + 1)).map fun lp : ℕ =>
    Real.sign dr ^ (lp + 1) * Real.exp (gammaln (lp + 1) - (lp + 1) * Real.log |dr|)
  (List.range (LMax + 1)).map fun m =>
    fun i j => hankel ((svals.take (LMax + m + 1)).drop (2 * m)) (svals.drop (LMax + m)) i j
      * (1 / betanm (m + i) m * alphanm (m + j) m)

/-- `np.fliplr`. -/
noncomputable def fliplr {L : ℕ} (q : Mom L) : Mom L := Mom.ofFn L fun l m => q.get l (-m)

/-- `apply_trans_mat(qlm, efms, q2Q)`; `none` = ValueError.  The matrices are real, so the
`np.conj` of line 275 does nothing.  newt/translationRecurs.py:249-278. -/
noncomputable def apply_trans_mat {L : ℕ} (q : Mom L) (efms : List (ℕ → ℕ → ℝ)) (q2Q : Bool) :
    Option (Mom L) :=
  if L + 1 ≠ efms.length then none
  else
    let qNew := Mom.ofFn L fun l m =>
      if m.natAbs ≤ l then
        ∑ k ∈ Finset.range (L + 1 - m.natAbs),
          ((efms.getD m.natAbs 0 (l - m.natAbs) k : ℝ) : ℂ) * q.get (m.natAbs + k) m
      else 0
    some (if q2Q then fliplr qNew else qNew)

/-- `apply_trans_mat_right(qlm, efms, q2Q)`: the transposed matrices.
newt/translationRecurs.py:281-312. -/
noncomputable def apply_trans_mat_right {L : ℕ} (q : Mom L) (efms : List (ℕ → ℕ → ℝ)) (q2Q : Bool) :
    Option (Mom L) :=
  if L + 1 ≠ efms.length then none
  else
    let qNew := Mom.ofFn L fun l m =>
      if m.natAbs ≤ l then
        ∑ k ∈ Finset.range (L + 1 - m.natAbs),
          ((efms.getD m.natAbs 0 k (l - m.natAbs) : ℝ) : ℂ) * q.get (m.natAbs + k) m
      else 0
    some (if q2Q then fliplr qNew else qNew)

/-- `translate_qlm(qlm, rvec)` of this module; `none` = an exception.
newt/translationRecurs.py:338-356. -/
noncomputable def translate_qlm {lmax : ℕ} (q : Mom lmax) (rvec : V3) : Option (Mom lmax) :=
  let r := rPOf rvec
  if r = 0 then some q
  else
    let rrms := transl_newt_z_RR lmax r
    if r = rvec 2 then apply_trans_mat q rrms false
    else do
      let Ds ← wignerDl lmax (-phiPOf rvec) (-thetaPOf rvec) (-phiPOf rvec)
      let qm1r := rotate_qlm_Ds q Ds false
      let qlmp ← apply_trans_mat qm1r rrms false
      return rotate_qlm_Ds qlmp Ds true

/-- `translate_Qlmb(Qlm, rvec)` of this module.  newt/translationRecurs.py:359-377. -/
noncomputable def translate_Qlmb {lmax : ℕ} (Q : Mom lmax) (rvec : V3) : Option (Mom lmax) :=
  let r := rPOf rvec
  if r = 0 then some Q
  else
    let ssms := transl_newt_z_SS lmax r
    if r = rvec 2 then apply_trans_mat Q ssms false
    else do
      let Ds ← wignerDl lmax (phiPOf rvec) (-thetaPOf rvec) (phiPOf rvec)
      let qm1r := rotate_qlm_Ds Q Ds false
      let Qlmp ← apply_trans_mat qm1r ssms false
      return rotate_qlm_Ds Qlmp Ds true

/-- `translate_q2Q(qlm, rvec)` of this module.  newt/translationRecurs.py:380-402. -/
noncomputable def translate_q2Q {lmax : ℕ} (q : Mom lmax) (rvec : V3) : Option (Mom lmax) :=
  let r := rPOf rvec
  if r = 0 then some q
  else
    let srms := transl_newt_z_SR lmax r
    if r = rvec 2 then apply_trans_mat q srms true
    else do
      let Ds ← wignerDl lmax (-phiPOf rvec) (-thetaPOf rvec) (-phiPOf rvec)
      let qm1r := rotate_qlm_Ds q Ds false
      let Qlmp ← apply_trans_mat qm1r srms true
      let Ds2 ← wignerDl lmax (phiPOf rvec) (-thetaPOf rvec) (phiPOf rvec)
      return rotate_qlm_Ds Qlmp Ds2 true

end Newt.trr
