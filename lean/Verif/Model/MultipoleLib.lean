import Verif.Model.TranslationRecurs

/-!
# Model of `newt/multipoleLib.py`
-/

namespace Newt

/-! ## force_basis -/

/-- Row `l` of the four work arrays of `force_basis`, orders `m >= 0` only
(`ytilC[l, L+m]`, `bX[l, L+m]`, `bY[l, L+m]`, `bZ[l, L+m]`). -/
structure FBRow where
  yt : ℕ → ℂ
  bX : ℕ → ℂ
  bY : ℕ → ℂ
  bZ : ℕ → ℂ

/-- A row of zeros (`np.zeros`). -/
def FBRow.zero : FBRow := ⟨fun _ => 0, fun _ => 0, fun _ => 0, fun _ => 0⟩

/-- Row 0: `ytilC[0, L] = 1`.  newt/multipoleLib.py:30. -/
def FBRow.init : FBRow := ⟨fun m => if m = 0 then 1 else 0, fun _ => 0, fun _ => 0, fun _ => 0⟩

/-- The body of the loop over `l`: row `l` from row `l-1` (`p`) and row `l-2` (`pp`, zero for
`l = 1`).  newt/multipoleLib.py:32-53. -/
noncomputable def fbStep (x y z : ℝ) (l : ℕ) (p pp : FBRow) : FBRow :=
  let r2 : ℂ := ((x ^ 2 + y ^ 2 + z ^ 2 : ℝ) : ℂ)
  let l21 : ℂ := 2 * l - 1
  let w : ℂ := (x : ℂ) - Complex.I * y
  let l2m2 : ℕ → ℂ := fun m => (l : ℂ) ^ 2 - (m : ℂ) ^ 2
  { yt := fun m =>
      if m = l then -w * p.yt (l - 1) / (2 * l)
      else if l = 1 then (if m = 0 then l21 * z * p.yt 0 / (l : ℂ) ^ 2 else 0)
      else if m < l then (l21 * z * p.yt m - r2 * pp.yt m) / l2m2 m else 0
    bX := fun m =>
      if m = l then -(p.yt (l - 1) + p.bX (l - 1) * w) / (2 * l)
      else if l = 1 then (if m = 0 then l21 * z * p.bX 0 / (l : ℂ) ^ 2 else 0)
      else if m < l then (l21 * z * p.bX m) / l2m2 m - (2 * x * pp.yt m + r2 * pp.bX m) / l2m2 m else 0
    bY := fun m =>
      if m = l then (Complex.I * p.yt (l - 1) - p.bY (l - 1) * w) / (2 * l)
      else if l = 1 then (if m = 0 then l21 * z * p.bY 0 / (l : ℂ) ^ 2 else 0)
      else if m < l then (l21 * z * p.bY m) / l2m2 m - (2 * y * pp.yt m + r2 * pp.bY m) / l2m2 m else 0
    bZ := fun m =>
      if m = l then -(p.bZ (l - 1) * w) / (2 * l)
      else if l = 1 then (if m = 0 then l21 * (p.yt 0 + z * p.bZ 0) / (l : ℂ) ^ 2 else 0)
      else if m < l then l21 * (p.yt m + z * p.bZ m) / l2m2 m
        - (2 * z * pp.yt m + r2 * pp.bZ m) / l2m2 m else 0 }

/-- Rows `l` and `l-1` after `l` iterations.  newt/multipoleLib.py:32-53. -/
noncomputable def fbRows (x y z : ℝ) : ℕ → FBRow × FBRow
  | 0 => (FBRow.init, FBRow.zero)
  | l + 1 => (fbStep x y z (l + 1) (fbRows x y z l).1 (fbRows x y z l).2, (fbRows x y z l).1)

/-- The array with row `l`, order `m >= 0` equal to `f l m`, zeros for negative orders. -/
noncomputable def momOfRows (L : ℕ) (f : ℕ → ℕ → ℂ) : Mom L :=
  Mom.ofFn L fun l m => if 0 ≤ m ∧ m ≤ l then f l m.toNat else 0

/-- `force_basis(L, x, y, z)`; `none` = IndexError (`bZ[1, L] = 1` with a single row, lines 25-28).
newt/multipoleLib.py:14-64. -/
noncomputable def force_basis (L : ℕ) (x y z : ℝ) : Option (Mom L × Mom L × Mom L) :=
  if x = 0 ∧ y = 0 ∧ z = 0 then
    if L = 0 then none
    else some
      ((Mom.ofFn L fun l m => if l = 1 ∧ m = 1 then -1 / 2 else 0).fillNeg,
       (Mom.ofFn L fun l m => if l = 1 ∧ m = 1 then Complex.I / 2 else 0).fillNeg,
       (Mom.ofFn L fun l m => if l = 1 ∧ m = 0 then 1 else 0).fillNeg)
  else some
    ((momOfRows L fun l => (fbRows x y z l).1.bX).fillNeg,
     (momOfRows L fun l => (fbRows x y z l).1.bY).fillNeg,
     (momOfRows L fun l => (fbRows x y z l).1.bZ).fillNeg)

/-! ## multipole_force -/

/-- The factor `fac2` of the innermost loop, without the basis function.
newt/multipoleLib.py:88-101 and 128-141. -/
noncomputable def forceFac {LMax : ℕ} (q Q : Mom LMax) (cnst : ℝ) (lo : ℕ) (mo : ℤ) (l : ℕ) (m : ℤ) : ℂ :=
  let gamsum : ℝ := gammaln (l + m + 1) + gammaln (l - m + 1)
    - (gammaln (lo + mo + 1) + gammaln (lo - mo + 1))
  let mofac : ℂ := q.get lo mo * ((4 * Real.pi * cnst : ℝ) : ℂ)
  let lmofac : ℂ := mofac / ((2 * l + 1 : ℝ) : ℂ) * ((Real.sqrt ((2 * l + 1) / (2 * lo + 1)) : ℝ) : ℂ)
  Q.get l m * lmofac * ((Real.sqrt (Real.exp gamsum) : ℝ) : ℂ)

/-- The contribution of one pair `(lo, mo)` to the force component whose basis is `b`: the loops
over `l` and `m`.  newt/multipoleLib.py:94-104. -/
noncomputable def forceTerm {LMax : ℕ} (q Q b : Mom LMax) (cnst : ℝ) (lo : ℕ) (mo : ℤ) : ℂ :=
  ∑ l ∈ Finset.Icc (lo + 1) LMax, ∑ m ∈ Finset.Icc (mo - (l - lo : ℕ)) (mo + (l - lo : ℕ)),
    forceFac q Q cnst lo mo l m * b.get (l - lo) (m - mo)

/-- One component of `multipole_force`.  newt/multipoleLib.py:89-104. -/
noncomputable def forceComp {LMax : ℕ} (q Q b : Mom LMax) (cnst : ℝ) : ℂ :=
  ∑ lo ∈ Finset.range (LMax + 1), ∑ mo ∈ Finset.Icc (-(lo : ℤ)) lo, forceTerm q Q b cnst lo mo

/-- `multipole_force(LMax, qlm, Qlmb, x, y, z)`; `none` = the exception of `force_basis`.
newt/multipoleLib.py:68-106. -/
noncomputable def multipole_force {LMax : ℕ} (q Q : Mom LMax) (x y z cnst : ℝ) : Option (Fin 3 → ℂ) :=
  (force_basis LMax x y z).map fun b =>
    ![forceComp q Q b.1 cnst, forceComp q Q b.2.1 cnst, forceComp q Q b.2.2 cnst]

/-- The column `mo` (Python index, negative values wrap) of a row of `2*LMax+1` cells. -/
def wrapCol (LMax : ℕ) (mo : ℤ) : ℕ := (if mo < 0 then mo + (2 * LMax + 1) else mo).toNat

/-- One row of `multipole_force_m`: `force[i, mo] += ...` for all `(lo, mo)`.
newt/multipoleLib.py:129-144. -/
noncomputable def forceCompM {LMax : ℕ} (q Q b : Mom LMax) (cnst : ℝ) (col : ℕ) : ℂ :=
  ∑ lo ∈ Finset.range (LMax + 1), ∑ mo ∈ Finset.Icc (-(lo : ℤ)) lo,
    if wrapCol LMax mo = col then forceTerm q Q b cnst lo mo else 0

/-- `multipole_force_m`: a `3 x (2*LMax+1)` array.  newt/multipoleLib.py:108-146. -/
noncomputable def multipole_force_m {LMax : ℕ} (q Q : Mom LMax) (x y z cnst : ℝ) :
    Option (Fin 3 → Fin (2 * LMax + 1) → ℂ) :=
  (force_basis LMax x y z).map fun b =>
    ![fun c => forceCompM q Q b.1 cnst c, fun c => forceCompM q Q b.2.1 cnst c,
      fun c => forceCompM q Q b.2.2 cnst c]

/-! ## torque_lm -/

/-- The triple `nlm, nc, ns` (`nc`, `ns` as lists). -/
structure TorqueOut (L : ℕ) where
  nlm : Mom L
  nc : List ℂ
  ns : List ℂ

/-- `nm = np.sum(nlm, 0)`, column `m`. -/
noncomputable def colSum {L : ℕ} (n : Mom L) (m : ℤ) : ℂ := ∑ l ∈ Finset.range (L + 1), n.get l m

/-- The end of `torque_lm` and `torque`: `nm[minL:] +- nm[minL::-1]`.
newt/multipoleLib.py:193-197, 304-308. -/
noncomputable def torqueOut {L : ℕ} (n : Mom L) : TorqueOut L :=
  { nlm := n
    nc := (List.range (L + 1)).map fun k : ℕ => colSum n k + colSum n (-(k : ℤ))
    ns := (List.range (L + 1)).map fun k : ℕ => colSum n k - colSum n (-(k : ℤ)) }

/-- `torque_lm(qlm, Qlm)` for arrays of the same degree.  newt/multipoleLib.py:184-197. -/
noncomputable def torque_lm {L : ℕ} (q Q : Mom L) (cnst : ℝ) : TorqueOut L :=
  torqueOut (Mom.ofFn L fun l m =>
    ((-4 * Real.pi * cnst : ℝ) : ℂ) * Complex.I * ((1 / (2 * l + 1) * m : ℝ) : ℂ) * q.get l m * Q.get l m)

/-- `torque_lm(qlm, Qlm)` for arbitrary degrees: numpy broadcasting.  The `(minL+1) x (2*minL+1)`
factor can only be broadcast against a larger array when it is `1 x 1`, i.e. `minL = 0`, and then it
is zero; otherwise `none` (ValueError).  newt/multipoleLib.py:184-197. -/
noncomputable def torque_lm_any {L1 L2 : ℕ} (q : Mom L1) (Q : Mom L2) (cnst : ℝ) :
    Option (Σ L, Mom L) :=
  if h : L1 = L2 then some ⟨L1, (torque_lm q (h ▸ Q) cnst).nlm⟩
  else if min L1 L2 = 0 then some ⟨max L1 L2, Mom.ofFn _ fun _ _ => 0⟩
  else none

/-! ## torque -/

/-- `q *= np.outer(lfac, ms)`.  newt/multipoleLib.py:239-241, 252, 271. -/
noncomputable def weightLM {L : ℕ} (q : Mom L) : Mom L :=
  Mom.ofFn L fun l m => q.get l m * ((1 / (2 * l + 1) * m : ℝ) : ℂ)

/-- `torque(qlm, Qlm, euler, rvec, trans_type)` for arrays of the same degree `L` (for different
degrees every branch raises: the final product or the in-place weight cannot be broadcast, and
`minL = 0` already raises in `wignerDl`).  `none` = an exception.  newt/multipoleLib.py:200-308. -/
noncomputable def torque {L : ℕ} (q Q : Mom L) (alpha beta gamma : ℝ) (rvec : V3) (trans_type : String)
    (cnst : ℝ) : Option (TorqueOut L) := do
  let DsR ← if trans_type = "inner-inner" ∨ trans_type = "inner-outer"
    then wignerDl L alpha beta gamma else wignerDl L (-alpha) beta (-gamma)
  let r := rPOf rvec
  let phi := phiPOf rvec
  let theta := thetaPOf rvec
  let finish (qnew Qnew : Mom L) : TorqueOut L := torqueOut (Mom.ofFn L fun l m =>
    ((-4 * Real.pi * cnst : ℝ) : ℂ) * Complex.I * qnew.get l m * Qnew.get l m)
  if trans_type = "inner-inner" then
    let Q1 := weightLM Q
    if r = 0 then return finish q (rotate_qlm_Ds_right Q1 DsR false)
    else if r = rvec 2 then
      let Q2 ← trr.apply_trans_mat_right Q1 (trr.transl_newt_z_RR L r) false
      return finish q (rotate_qlm_Ds_right Q2 DsR false)
    else
      let Ds ← wignerDl L (-phi) (-theta) (-phi)
      let Q2 := rotate_qlm_Ds_right Q1 Ds true
      let Q3 ← trr.apply_trans_mat_right Q2 (trr.transl_newt_z_RR L r) false
      let Q4 := rotate_qlm_Ds_right Q3 Ds false
      return finish q (rotate_qlm_Ds_right Q4 DsR false)
  else if trans_type = "inner-outer" ∨ trans_type = "outer-outer" then
    let q1 := weightLM q
    if r = 0 then return finish (rotate_qlm_Ds_right q1 DsR false) Q
    else if r = rvec 2 then
      let sms := if trans_type = "inner-outer" then trr.transl_newt_z_SR L r else trr.transl_newt_z_SS L r
      -- line 282: q2Q is not passed
      let q2 ← trr.apply_trans_mat_right q1 sms false
      return finish (rotate_qlm_Ds_right q2 DsR false) Q
    else
      let Ds ← wignerDl L (-phi) (-theta) (-phi)
      if trans_type = "inner-outer" then
        let Ds2 ← wignerDl L phi (-theta) phi
        let q2 := rotate_qlm_Ds_right q1 Ds2 true
        let q3 ← trr.apply_trans_mat_right q2 (trr.transl_newt_z_SR L r) true
        let q4 := rotate_qlm_Ds_right q3 Ds false
        return finish (rotate_qlm_Ds_right q4 DsR false) Q
      else
        let q2 := rotate_qlm_Ds_right q1 Ds true
        let q3 ← trr.apply_trans_mat_right q2 (trr.transl_newt_z_SS L r) false
        let q4 := rotate_qlm_Ds_right q3 Ds false
        return finish (rotate_qlm_Ds_right q4 DsR false) Q
  else none

/-! ## embed_qlm -/

/-- `embed_qlm(qlm, LNew)` for `LNew >= 0`.  newt/multipoleLib.py:317-329. -/
noncomputable def embed_qlm {LOld : ℕ} (q : Mom LOld) (LNew : ℕ) : Mom LNew :=
  if h : LNew < LOld then
    -- qlm[:LNew+1, LOld-LNew:LOld+LNew+1]
    ⟨fun i j => q.cell ⟨i, by omega⟩ ⟨LOld - LNew + j, by omega⟩⟩
  else if h2 : LNew = LOld then h2 ▸ q
  else
    -- qNew[:LOld+1, LNew-LOld:LNew+LOld+1] = qlm
    ⟨fun i j => if hh : i.1 < LOld + 1 ∧ LNew - LOld ≤ j.1 ∧ j.1 < LNew + LOld + 1 then
      q.cell ⟨i, hh.1⟩ ⟨j - (LNew - LOld), by omega⟩ else 0⟩

/-- `embed_qlm` with any integer: for a negative degree a message is printed and the number `0`
is returned (`none` here).  newt/multipoleLib.py:311-329. -/
noncomputable def embed_qlm_int {LOld : ℕ} (q : Mom LOld) (LNew : ℤ) : Option (Σ L, Mom L) :=
  if LNew < 0 then none else some ⟨LNew.toNat, embed_qlm q LNew.toNat⟩

/-! ## torques_at_angle -/

/-- `torques_at_angle(tc, ts, angles, outer)` for one angle; `none` = IndexError (empty `tc`, or
`ts` shorter than `tc`).  newt/multipoleLib.py:332-345. -/
noncomputable def torques_at_angle (tc ts : List ℂ) (angle : ℝ) (outer : Bool) : Option ℝ :=
  if tc = [] ∨ ts.length < tc.length then none
  else
    let sign : ℝ := if outer then -1 else 1
    let c : ℕ → ℂ := fun k => tc.getD k 0
    let s : ℕ → ℂ := fun k => ts.getD k 0
    some (((c 0).re / 2 + ∑ k ∈ Finset.Icc 1 (tc.length - 1),
        ((c k).re * Real.cos (sign * k * angle) + (c k).im * Real.sin (sign * k * angle)))
      + ((s 0).im / 2 + ∑ k ∈ Finset.Icc 1 (tc.length - 1),
        ((s k).im * Real.sin (sign * k * angle) + (s k).re * Real.cos (sign * k * angle))))

end Newt
