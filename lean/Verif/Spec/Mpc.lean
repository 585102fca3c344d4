import Verif.Spec.ReadMulti
import Verif.Spec.Body
import Verif.Spec.SolidsAch

/-!
# Specification of `.mpc` files

What the lines of a file mean (`Renders`) as a list of statements about two bodies, the total and the
working one, and what the statements do (`exec`).
-/

namespace Newt.Spec

open MeasureTheory

/-- Matter of density `rho` filling the compact region `S`. -/
noncomputable def Body.filled (rho : ℝ) (S : Set V3) (hS : IsCompact S) : Body :=
  [{ rho := rho
     mu := volume.restrict S
     fin := ⟨by simpa using hS.measure_lt_top⟩
     supp := ⟨S, hS, by simp [Measure.restrict_apply hS.isClosed.measurableSet.compl]⟩ }]

/-- The symmetric trapezoid with parallel sides `w1` (at `x = 0`) and `w2` (at `x = h`). -/
def trapezoid (w1 w2 h : ℝ) : Set (ℝ × ℝ) :=
  {p | 0 ≤ p.1 ∧ p.1 ≤ h ∧ |p.2| ≤ (w1 + (w2 - w1) * (p.1 / h)) / 2}

/-- The part `x >= d` of the disc of radius `r`. -/
def segment (r d : ℝ) : Set (ℝ × ℝ) := {p | d ≤ p.1 ∧ p.1 ^ 2 + p.2 ^ 2 ≤ r ^ 2}

end Newt.Spec

namespace Newt.Multi

open Newt.Spec

/-- The statements of a file. -/
inductive Stmt where
  | create (b : Body)
  | rotate (alpha beta gamma : ℝ)
  | translate (d : V3)
  | add
  | zero
  | get
  | put

/-- The effect of a program on the (total, working) bodies; the result is the total body. -/
noncomputable def exec : List Stmt → Body × Body → Body
  | [], (tot, _) => tot
  | .create b :: p, (tot, _) => exec p (tot, b)
  | .rotate a b g :: p, (tot, wrk) => exec p (tot, wrk.rotate a b g)
  | .translate d :: p, (tot, wrk) => exec p (tot, wrk.translate d)
  | .add :: p, (tot, wrk) => exec p (tot ++ wrk, wrk)
  | .zero :: p, (_, wrk) => exec p ([], wrk)
  | .get :: p, (tot, _) => exec p (tot, tot)
  | .put :: p, (_, wrk) => exec p (wrk, wrk)

/-- The keywords in the order in which they are looked for. -/
def keywords : List String := ["create", "rotate", "translate", "add", "cmin", "inchin", "nsteps", "load",
  "zeroqlm", "gettotal", "puttotal", "end"]

/-- The command on a line: the first keyword of the list that occurs before any comment. -/
def command (line : Str) : Option String := keywords.find? fun k => decide (has k (uncomment line))

/-- The text after the keyword, up to a comment. -/
def Args (line : Str) (kw : String) (txt : Str) : Prop :=
  ∃ pre, uncomment line = pre ++ kw.toList ++ txt ∧ (∀ c ∈ pre, kw.toList.head? ≠ some c) ∧ ¬ has kw txt

/-- A comma-separated list of numbers. -/
def Numbers (num : Str → Option ℝ) (txt : Str) (xs : List ℝ) : Prop :=
  ∃ ws : List Str, txt = [','].intercalate ws ∧ ws ≠ [] ∧ (∀ w ∈ ws, ',' ∉ w) ∧
    List.Forall₂ (fun w x => num w = some x) ws xs

/-- A number, possibly followed by a comma and anything else. -/
def FirstNumber (num : Str → Option ℝ) (txt : Str) (x : ℝ) : Prop :=
  ∃ (w : Str) (ws : List Str), txt = [','].intercalate (w :: ws) ∧ (∀ v ∈ w :: ws, ',' ∉ v) ∧ num w = some x

/-- The region meant by a shape name with its parameters (lengths in the unit `fac` metres, angles in
degrees), when moments up to degree `L` are wanted.  A `platehole` is only available up to degree 5 (see
`C40_platehole_degree`); a cone with a non-zero upper radius is not covered (see
`C40_cone_ignores_top`). -/
inductive Makes (L : ℕ) (fac : ℝ) : String → List ℝ → Set V3 → Prop
  | cylinder (Ri Ro H phi0 phi1 : ℝ) (h1 : 0 ≤ Ri) (h2 : Ri < Ro) (h3 : 0 < H) (h4 : phi0 < phi1)
      (h5 : phi1 ≤ phi0 + 360) :
      Makes L fac "cylinder" [Ri, Ro, H, phi0, phi1] (prism (H * fac)
        (sector (Ri * fac) (Ro * fac) ((phi1 + phi0) / 2 * (Real.pi / 180)) ((phi1 - phi0) / 2 * (Real.pi / 180))))
  | sphere (r : ℝ) (h : 0 < r) : Makes L fac "sphere" [r] (ball (r * fac))
  | cone (LR H : ℝ) (h1 : 0 < LR) (h2 : 0 < H) :
      Makes L fac "cone" [LR, 0, H] (coneOver (H * fac) (disc (LR * fac)))
  | triangle (d y1 y2 t : ℝ) (h1 : 0 < d) (h2 : y1 ≠ y2) (h3 : 0 < t) :
      Makes L fac "triangle" [d, y1, y2, t]
        (prism (t * fac) (triangle (d * fac, y1 * fac) (d * fac, y2 * fac)))
  | trapezoid (w1 w2 h t : ℝ) (h1 : 0 < w1) (h2 : 0 < w2) (h3 : w1 ≠ w2) (h4 : 0 < h) (h5 : 0 < t) :
      Makes L fac "trapezoid" [w1, w2, h, t] (prism (t * fac) (trapezoid (w1 * fac) (w2 * fac) (h * fac)))
  | partcylinder (r d h : ℝ) (h1 : 0 < d) (h2 : d < r) (h3 : 0 < h) :
      Makes L fac "partcylinder" [r, d, h] (prism (h * fac) (segment (r * fac) (d * fac)))
  | tetrahedron (x y z : ℝ) (h1 : 0 < x) (h2 : 0 < y) (h3 : 0 < z) :
      Makes L fac "tetrahedron" [x, y, z] (coneOver (z * fac) (Spec.triangle (x * fac, 0) (0, y * fac)))
  | platehole (r t theta : ℝ) (h0 : L ≤ 5) (h1 : 0 < r) (h2 : 0 < t) (h3 : -90 < theta) (h4 : theta < 90) :
      Makes L fac "platehole" [r, t, theta] (drilledSlab (t * fac) (r * fac) (theta * (Real.pi / 180)))
  | cylhole (r R : ℝ) (h1 : 0 < r) (h2 : r ≤ R) :
      Makes L fac "cylhole" [r, R] (drilledYCylinder (r * fac) (R * fac))
  | pyramid (x y z : ℝ) (h1 : 0 < x) (h2 : 0 < y) (h3 : 0 < z) :
      Makes L fac "pyramid" [x, y, z] (coneOver (z * fac) (rectangle (x * fac) (y * fac)))
  | box (x y z : ℝ) (h1 : 0 < x) (h2 : 0 < y) (h3 : 0 < z) :
      Makes L fac "rectangle" [x, y, z] (prism (z * fac) (rectangle (x * fac) (y * fac)))

/-- The shapes the reader knows. -/
def knownShapes : List String := ["cylinder", "sphere", "cone", "triangle", "trapezoid", "partcylinder", "tetrahedron",
  "platehole", "cylhole", "pyramid", "rectangle"]

/-- `Renders e fac bound lines prog`: with the length unit `fac` (metres) and a shape already named
or not (`bound`), the lines say `prog`.  Commands that use the working register need a shape named
before.  After a `create` block at the origin there must be another line, and if that line contains
`add` anywhere (even in a comment) it must be an `add` command.  The block of an unknown shape is passed
over up to the next line that contains `create` or `end` (even in a comment). -/
inductive Renders {L : ℕ} (e : Env L) : ℝ → Bool → List Str → List Stmt → Prop
  | nil (fac bound) : Renders e fac bound [] []
  | stop (fac bound line rest) (h : command line = some "end") : Renders e fac bound (line :: rest) []
  | other (fac bound line rest prog) (h : command line = none ∨ command line = some "nsteps")
      (hr : Renders e fac bound rest prog) : Renders e fac bound (line :: rest) prog
  | cm (fac bound line rest prog) (h : command line = some "cmin") (hr : Renders e (1 / 100) bound rest prog) :
      Renders e fac bound (line :: rest) prog
  | inch (fac bound line rest prog) (h : command line = some "inchin")
      (hr : Renders e (254 / 10000) bound rest prog) : Renders e fac bound (line :: rest) prog
  | rotate (fac line rest prog) (txt) (a b c : ℝ) (h : command line = some "rotate") (ha : Args line "rotate" txt)
      (hn : Numbers e.num txt [a, b, c]) (hr : Renders e fac true rest prog) :
      Renders e fac true (line :: rest)
        (.rotate (a * (Real.pi / 180)) (b * (Real.pi / 180)) (c * (Real.pi / 180)) :: prog)
  | translate (fac line rest prog) (txt) (x y z : ℝ) (h : command line = some "translate")
      (ha : Args line "translate" txt) (hn : Numbers e.num txt [x, y, z]) (hr : Renders e fac true rest prog) :
      Renders e fac true (line :: rest) (.translate ![x * fac, y * fac, z * fac] :: prog)
  | add (fac line rest prog) (h : command line = some "add") (hr : Renders e fac true rest prog) :
      Renders e fac true (line :: rest) (.add :: prog)
  | zero (fac bound line rest prog) (h : command line = some "zeroqlm") (hr : Renders e fac bound rest prog) :
      Renders e fac bound (line :: rest) (.zero :: prog)
  | get (fac bound line rest prog) (h : command line = some "gettotal") (hr : Renders e fac true rest prog) :
      Renders e fac bound (line :: rest) (.get :: prog)
  | put (fac bound line rest prog) (h : command line = some "puttotal") (hr : Renders e fac true rest prog) :
      Renders e fac bound (line :: rest) (.put :: prog)
  | load (fac bound line rest prog) (txt fname : Str) (lines : List Str) (b : Body)
      (h : command line = some "load") (ha : Args line "load " txt)
      (hf : txt.dropWhile isSpace = fname ++ (txt.dropWhile isSpace).drop fname.length)
      (hf1 : ∀ c ∈ (txt.dropWhile isSpace).drop fname.length, isSpace c)
      (hf2 : ∀ c, fname.getLast? = some c → ¬ isSpace c) (hm : e.momFile fname = some lines)
      (hq : read_gsq e.num e.int lines = .ok ⟨L, Mom.ofFn L b.inner⟩) (hr : Renders e fac true rest prog) :
      Renders e fac bound (line :: rest) (.create b :: prog)
  | unknown (fac bound) (l0 : Str) (mid : List Str) (line : Str) (rest prog) (txt name : Str) (tl : List Str)
      (h : command l0 = some "create") (ha : Args l0 "create" txt) (hw : words txt = name :: tl)
      (hname : ∀ k ∈ knownShapes, name ≠ k.toList) (hmid : ∀ l ∈ mid, ¬ has "create" l ∧ ¬ has "end" l)
      (hline : has "create" line ∨ has "end" line) (hr : Renders e fac true (line :: rest) prog) :
      Renders e fac bound (l0 :: (mid ++ line :: rest)) prog
  | create (fac bound) (l0 l1 l2 l3 : Str) (rest prog) (txt : Str) (name : String) (tl : List Str)
      (vals : List ℝ) (S : Set V3) (hS : IsCompact S) (dens x y z : ℝ)
      (h : command l0 = some "create") (ha : Args l0 "create" txt) (hw : words txt = name.toList :: tl)
      (hv : Numbers e.num l1 vals) (hS' : Makes L fac name vals S) (hd : FirstNumber e.num l2 dens)
      (hp : Numbers e.num l3 [x, y, z])
      (hnext : x = 0 ∧ y = 0 ∧ z = 0 → ∃ line more, rest = line :: more ∧ (has "add" line → command line = some "add"))
      (hr : Renders e fac true rest prog) :
      Renders e fac bound (l0 :: l1 :: l2 :: l3 :: rest)
        (.create ((Body.filled (dens * 1000) S hS).translate ![x * fac, y * fac, z * fac]) :: prog)

end Newt.Multi
