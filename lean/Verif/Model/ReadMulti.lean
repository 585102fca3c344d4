import Verif.Model.Translations
import Verif.Model.Rotations
import Verif.Model.Qlm
import Verif.Model.QlmNum
import Verif.Model.QlmACH

/-!
# Model of `newt/read_multiFor.py`: the readers of MULTI files

A file is its list of lines (`f.readlines()`), a line a list of characters.  Python's `float()` and
`int()` are parameters `num` and `int` (text to number, `none` = `ValueError`; texts of non-finite
numbers count as unreadable).  Numbers are exact reals.  Printing is left out, except that printing
an unassigned variable raises `UnboundLocalError`.
-/

namespace Newt.Multi

/-- A text. -/
abbrev Str := List Char

/-- The exceptions the readers raise. -/
inductive Err where
  | indexError
  | valueError
  | typeError
  | zeroDivision
  | unboundLocal
  | fileNotFound
  deriving DecidableEq

/-- `kw in line`. -/
def has (kw : String) (line : Str) : Prop := kw.toList <:+: line

instance (kw : String) (line : Str) : Decidable (has kw line) := by unfold has; infer_instance

/-- Python white space (ASCII). -/
def isSpace (c : Char) : Bool := c = ' ' ∨ c = '\t' ∨ c = '\n' ∨ c = '\r' ∨ c = '\x0b' ∨ c = '\x0c'

/-- `line.split()`: the maximal runs of non-blank characters. -/
def words (line : Str) : List Str := (line.splitOnP isSpace).filter (· ≠ [])

/-- `line.split('%')[0]`.  newt/read_multiFor.py:146. -/
def uncomment (line : Str) : Str := line.takeWhile (· ≠ '%')

/-- Cut at the first occurrence of the (non-empty) text `kw`: what is before and what is after. -/
def cutAt (kw : Str) : Str → Option (Str × Str)
  | [] => if kw <+: [] then some ([], []) else none
  | c :: s => if kw <+: c :: s then some ([], (c :: s).drop kw.length)
      else (cutAt kw s).map fun p => (c :: p.1, p.2)

/-- `line.split(kw)[1]`: from the first occurrence of `kw` to the next one or to the end. -/
def between (kw : String) (line : Str) : Except Err Str :=
  match cutAt kw.toList line with
  | none => .error .indexError
  | some (_, b) => match cutAt kw.toList b with
    | none => .ok b
    | some (a, _) => .ok a

/-- `lines[j]` of the remaining lines. -/
def nth (lines : List Str) (j : ℕ) : Except Err Str :=
  match lines[j]? with
  | none => .error .indexError
  | some s => .ok s

/-- `float(text)`. -/
def float (num : Str → Option ℝ) (s : Str) : Except Err ℝ :=
  match num s with
  | none => .error .valueError
  | some x => .ok x

/-- `[float(val) for val in line.split(',')]`, also `np.array(line.split(','), dtype=float)`. -/
def floats (num : Str → Option ℝ) (line : Str) : Except Err (List ℝ) :=
  (line.splitOn ',').mapM (float num)

/-! ## read_gsq and read_gbq -/

/-- `q[l, L+m] = v`. -/
def put {L : ℕ} (q : Mom L) (l : ℕ) (m : ℤ) (v : ℂ) : Mom L :=
  ⟨fun i j => if (i : ℕ) = l ∧ (j : ℤ) - L = m then v else q.cell i j⟩

/-- The loop over the data lines; `scale l` is `1e-3*(0.01)**l` for `.gsq` and `1` for `.gbq`.
newt/read_multiFor.py:44-51, 87-94. -/
noncomputable def dataLoop (num : Str → Option ℝ) (L : ℕ) (scale : ℕ → ℝ) :
    List Str → ℕ → ℕ → Mom L → Except Err (Mom L)
  | [], _, _, q => .ok q
  | line :: rest, l, m, q =>
    match words line with
    | [] => .error .indexError
    | a :: tl =>
      match num a with
      | none => .error .valueError
      | some lr =>
        match tl with
        | [] => .error .indexError
        | b :: _ =>
          match num b with
          | none => .error .valueError
          | some li =>
            if L < l then .error .indexError
            else
              let q := put q l m (((lr : ℂ) + Complex.I * li) * ((scale l : ℝ) : ℂ))
              if l < m + 1 then dataLoop num L scale rest (l + 1) 0 q
              else dataLoop num L scale rest l (m + 1) q

/-- The body common to `read_gsq` and `read_gbq`, on the lines of the file; the result is the
degree found in the file and the array.  newt/read_multiFor.py:38-58, 82-101. -/
noncomputable def readMoments (num : Str → Option ℝ) (int : Str → Option ℤ) (scale : ℕ → ℝ) (lines : List Str) :
    Except Err (Σ L, Mom L) := do
  let _title ← nth lines 0
  let line1 ← nth lines 1
  match words line1 with
  | [] => .error .indexError
  | w :: _ =>
    match int w with
    | none => .error .valueError
    | some z =>
      if z < 0 then .error .valueError
      else
        let q ← dataLoop num z.toNat scale (lines.drop 9) 0 0 (Mom.ofFn z.toNat fun _ _ => 0)
        .ok ⟨z.toNat, q.fillNeg⟩

/-- `read_gsq`.  newt/read_multiFor.py:17-58. -/
noncomputable def read_gsq (num : Str → Option ℝ) (int : Str → Option ℤ) (lines : List Str) :
    Except Err (Σ L, Mom L) := readMoments num int (fun l => 1 / 1000 * (1 / 100) ^ l) lines

/-- `read_gbq`.  newt/read_multiFor.py:61-101. -/
noncomputable def read_gbq (num : Str → Option ℝ) (int : Str → Option ℤ) (lines : List Str) :
    Except Err (Σ L, Mom L) := readMoments num int (fun _ => 1) lines

/-! ## read_mpc -/

/-- What the reader needs from outside: number parsing and the `.gsq` files of the moment directory. -/
structure Env (L : ℕ) where
  num : Str → Option ℝ
  int : Str → Option ℤ
  momFile : Str → Option (List Str)

/-- The local variables of the loop: the remaining lines `lines[1+k:]`, the length unit, the two
registers (`none` = some entry is not finite) and whether `shape` has been assigned. -/
structure St (L : ℕ) where
  rest : List Str
  fac : ℝ
  tot : Option (Mom L)
  wrk : Option (Mom L)
  shape : Bool

variable {L : ℕ}

/-- The sum of two arrays. -/
noncomputable def madd (p q : Mom L) : Mom L := Mom.ofFn L fun l m => p.get l m + q.get l m

/-- The difference of two arrays. -/
noncomputable def msub (p q : Mom L) : Mom L := Mom.ofFn L fun l m => p.get l m - q.get l m

/-- `p += q` on arrays that may hold non-finite entries. -/
noncomputable def addO (p q : Option (Mom L)) : Option (Mom L) := p.bind fun a => q.map fun b => madd a b

/-- `p -= q`. -/
noncomputable def subO (p q : Option (Mom L)) : Option (Mom L) := p.bind fun a => q.map fun b => msub a b

/-- A moment routine's outcome as exception, non-finite or finite array. -/
noncomputable def ofRes : Qlm.Res L → Except Err (Option (Mom L))
  | .valueError => .error .valueError
  | .nan => .ok none
  | .ok q => .ok (some q)

/-- The same for the routines of `newt/qlmACH.py` (a division by zero on numpy floats gives
non-finite entries). -/
noncomputable def ofAch : BigQlm.Res L → Except Err (Option (Mom L))
  | .valueError => .error .valueError
  | .zeroDivision => .ok none
  | .ok q => .ok (some q)

/-- `trs.translate_qlm(q, pos)`: `pos[0]`, `pos[1]`, `pos[2]` must exist. -/
noncomputable def translateO (q : Option (Mom L)) (pos : List ℝ) : Except Err (Option (Mom L)) :=
  match pos with
  | x :: y :: z :: _ => .ok (q.map fun q => translate_qlm q ![x, y, z])
  | _ => .error .indexError

/-- `rot.rotate_qlm(q, a, b, g)`. -/
noncomputable def rotateO (q : Option (Mom L)) (a b g : ℝ) : Option (Mom L) :=
  q.bind fun q => rotate_qlm q a b g

/-- `dens = float(lines[3+k].split(',')[0])*1000`.  newt/read_multiFor.py:156 and copies. -/
noncomputable def density (e : Env L) (rest : List Str) : Except Err ℝ := do
  let line ← nth rest 2
  let d ← match line.splitOn ',' with
    | [] => .error .indexError
    | w :: _ => float e.num w
  .ok (d * 1000)

/-- `[float(val)*fac for val in lines[2+k].split(',')]`.  newt/read_multiFor.py:170 and copies. -/
noncomputable def params (e : Env L) (fac : ℝ) (rest : List Str) : Except Err (List ℝ) := do
  let line ← nth rest 1
  let v ← floats e.num line
  .ok (v.map (· * fac))

open Classical in
/-- The moments of the shape named `name`; `none` = unknown shape.  Parameters are read before the
density, as in the code.  newt/read_multiFor.py:150-332. -/
noncomputable def makeShape (e : Env L) (fac : ℝ) (rest : List Str) (name : Str) :
    Option (Except Err (Option (Mom L))) :=
  if name = "cylinder".toList then some do          -- 150-159
    let line ← nth rest 1
    let v ← floats e.num line
    match v with
    | [ri, ro, h, phi0, phi1] =>
      let dens ← density e rest
      let Ri := ri * fac
      let Ro := ro * fac
      let H := h * fac
      let phic := (phi1 + phi0) * Real.pi / 180 / 2
      let phih := (phi1 - phi0) * Real.pi / 180 / 2
      ofRes (Qlm.annulus L (dens * phih * H * (Ro ^ 2 - Ri ^ 2)) H Ri Ro phic phih)
    | _ => .error .valueError
  else if name = "sphere".toList then some do       -- 169-174
    let v ← params e fac rest
    match v with
    | r :: _ =>
      let dens ← density e rest
      .ok (some (Qlm.sphere L (dens * 4 / 3 * Real.pi * r ^ 3) r))
    | [] => .error .indexError
  else if name = "cone".toList then some do         -- 184-190
    let v ← params e fac rest
    match v with
    | [LR, _UR, H] =>
      let dens ← density e rest
      ofRes (Qlm.cone L (dens * Real.pi * H * LR ^ 2 / 3) H LR 0 Real.pi)
    | _ => .error .valueError
  else if name = "triangle".toList then some do     -- 200-205
    let v ← params e fac rest
    match v with
    | [d, y1, y2, t] =>
      let dens ← density e rest
      ofRes (Qlm.triPrism L (dens * t * d * |y2 - y1| / 2) t d y1 y2)
    | _ => .error .valueError
  else if name = "trapezoid".toList then some do    -- 215-236
    let v ← params e fac rest
    match v with
    | [w1, w2, h, t] =>
      let w3 := if w2 < w1 then w2 else w1
      let w4 := if w2 < w1 then w1 else w2
      let dens ← density e rest
      if w4 - w3 = 0 then .error .zeroDivision
      else
        let hs := w3 * h / (w4 - w3)
        let hb := h + hs
        let q1 ← ofRes (Qlm.triIsoPrism L (dens * t * w4 * hb / 2) t w4 hb 0)
        let q2 ← ofRes (Qlm.triIsoPrism L (dens * t * w3 * hs / 2) t w3 hs 0)
        let q := (subO q1 q2).map fun q => translate_qlm q ![-hs, 0, 0]
        if w2 < w1 then
          .ok (rotateO (q.map fun q => translate_qlm q ![-(hb - hs), 0, 0]) 0 0 Real.pi)
        else .ok q
    | _ => .error .valueError
  else if name = "partcylinder".toList then some do -- 246-254
    let v ← params e fac rest
    match v with
    | [r, d, h] =>
      let dens ← density e rest
      if r = 0 then .error .zeroDivision
      else if d / r < -1 ∨ 1 < d / r then
        -- phih is nan: all comparisons with it are false, all entries become nan
        if h ≤ 0 ∨ r < 0 then .error .valueError else .ok none
      else
        let phih := Real.arccos (d / r)
        let q1 ← ofRes (Qlm.annulus L (dens * h * phih * r ^ 2) h 0 r 0 phih)
        let q2 ← ofRes (Qlm.triIsoPrism2 L (dens * h * d * r * Real.sin phih) h r 0 phih)
        .ok (subO q1 q2)
    | _ => .error .valueError
  else if name = "tetrahedron".toList then some do  -- 264-269
    let v ← params e fac rest
    match v with
    | [x, y, z] =>
      let dens ← density e rest
      ofRes (Qlm.tetrahedron L (dens * x * y * z / 6) x y z)
    | _ => .error .valueError
  else if name = "platehole".toList then some do    -- 279-285
    let line ← nth rest 1
    let v ← floats e.num line
    match v with
    | [r, t, theta] =>
      let dens ← density e rest
      ofAch (QlmACH.platehole L dens (t * fac) (r * fac) (theta * (Real.pi / 180)))
    | _ => .error .valueError
  else if name = "cylhole".toList then some do      -- 297-302
    let v ← params e fac rest
    match v with
    | [r, R] =>
      let dens ← density e rest
      let q ← ofRes (QlmNum.steinmetz L dens r R)
      .ok (rotateO q (Real.pi / 2) 0 0)
    | _ => .error .valueError
  else if name = "pyramid".toList then some do      -- 312-317
    let v ← params e fac rest
    match v with
    | [x, y, z] =>
      let dens ← density e rest
      ofRes (Qlm.pyramid L (dens * x * y * z / 3) (x / 2) (y / 2) z)
    | _ => .error .valueError
  else if name = "rectangle".toList then some do    -- 327-332
    let v ← params e fac rest
    match v with
    | [x, y, z] =>
      let dens ← density e rest
      ofRes (Qlm.rectPrism L (dens * x * y * z) z x y 0)
    | _ => .error .valueError
  else none

open Classical in
/-- The end of every known `create` block: read the position, then either add at once (position zero
and `add` in the next line, comments included) or translate the working register.
newt/read_multiFor.py:160-168 and copies, 392. -/
noncomputable def finish (e : Env L) (s : St L) (q : Option (Mom L)) : Except Err (St L) := do
  let line ← nth s.rest 3
  let v ← floats e.num line
  let pos := v.map (· * s.fac)
  if ∀ x ∈ pos, x = 0 then
    let next ← nth s.rest 4
    if has "add" next then
      .ok ⟨s.rest.drop 5, s.fac, addO s.tot q, q, true⟩
    else
      let q ← translateO q pos
      .ok ⟨s.rest.drop 4, s.fac, s.tot, q, true⟩
  else
    let q ← translateO q pos
    .ok ⟨s.rest.drop 4, s.fac, s.tot, q, true⟩

/-- The skipping of an unknown shape, `n` = the remaining iterations of the `for` loop.
newt/read_multiFor.py:344-349. -/
def skip : ℕ → List Str → Except Err (List Str)
  | 0, rest => .ok rest
  | n + 1, rest => do
    let line2 ← nth rest 1
    if ¬ has "create" line2 ∧ ¬ has "end" line2 then skip n (rest.drop 1) else .ok rest

/-- One pass of the `while` loop on a non-empty rest; the flag tells that `end` was met.
newt/read_multiFor.py:144-392. -/
noncomputable def step (e : Env L) (s : St L) : Except Err (St L × Bool) := do
  let raw ← nth s.rest 0
  let line := uncomment raw
  let next := s.rest.drop 1
  if has "create" line then
    let after ← between "create" line
    match words after with
    | [] => .error .indexError
    | name :: _ =>
      match makeShape e s.fac s.rest name with
      | some mk =>
        let q ← mk
        let s' ← finish e s q
        .ok (s', false)
      | none =>
        let rest ← skip s.rest.length s.rest
        .ok (⟨rest.drop 1, s.fac, s.tot, s.wrk, true⟩, false)
  else if has "rotate" line then
    let txt ← between "rotate" line
    let v ← floats e.num txt
    if s.shape = false then .error .unboundLocal
    else match v.map (· * (Real.pi / 180)) with
      | a :: b :: c :: _ => .ok (⟨next, s.fac, s.tot, rotateO s.wrk a b c, true⟩, false)
      | _ => .error .indexError
  else if has "translate" line then
    if s.shape = false then .error .unboundLocal
    else
      let txt ← between "translate" line
      let v ← floats e.num txt
      let q ← translateO s.wrk (v.map (· * s.fac))
      .ok (⟨next, s.fac, s.tot, q, true⟩, false)
  else if has "add" line then
    if s.shape = false then .error .unboundLocal
    else .ok (⟨next, s.fac, addO s.tot s.wrk, s.wrk, true⟩, false)
  else if has "cmin" line then .ok (⟨next, 1 / 100, s.tot, s.wrk, s.shape⟩, false)
  else if has "inchin" line then .ok (⟨next, 254 / 10000, s.tot, s.wrk, s.shape⟩, false)
  else if has "nsteps" line then .ok (⟨next, s.fac, s.tot, s.wrk, s.shape⟩, false)
  else if has "load" line then
    let txt ← between "load " line
    let fname := (txt.dropWhile isSpace).reverse.dropWhile isSpace |>.reverse
    match e.momFile fname with
    | none => .error .fileNotFound
    | some lines =>
      let r ← read_gsq e.num e.int lines
      if h : r.1 = L then .ok (⟨next, s.fac, s.tot, some (h ▸ r.2), true⟩, false)
      else .error .typeError
  else if has "zeroqlm" line then
    .ok (⟨next, s.fac, s.tot.map fun _ => Mom.ofFn L fun _ _ => 0, s.wrk, s.shape⟩, false)
  else if has "gettotal" line then .ok (⟨next, s.fac, s.tot, s.tot, true⟩, false)
  else if has "puttotal" line then .ok (⟨next, s.fac, s.wrk, s.wrk, true⟩, false)
  else if has "end" line then .ok (⟨next, s.fac, s.tot, s.wrk, s.shape⟩, true)
  else .ok (⟨next, s.fac, s.tot, s.wrk, s.shape⟩, false)

/-- The `while` loop, at most `fuel` passes (the number of lines always suffices, see
`loop_fuel`).  newt/read_multiFor.py:143-393. -/
noncomputable def loop (e : Env L) : ℕ → St L → Except Err (St L)
  | 0, s => .ok s
  | n + 1, s =>
    if s.rest = [] then .ok s
    else do
      let (s', stop) ← step e s
      if stop then .ok s' else loop e n s'

/-- `read_mpc(LMax, filename, filepath)` on the lines of the file; the result is the total register
(`none` = non-finite entries).  newt/read_multiFor.py:104-393. -/
noncomputable def read_mpc (e : Env L) (lines : List Str) : Except Err (Option (Mom L)) := do
  let _title ← nth lines 0
  let zero := Mom.ofFn L fun _ _ => 0
  let s ← loop e lines.length ⟨lines.drop 1, 1 / 100, some zero, some zero, false⟩
  .ok s.tot

end Newt.Multi
