import Verif.Model.GlibFloat
import Verif.Model.Pg2Multi

/-!
# `newt/pg2Multi.py` in floating point arithmetic

`qmoments` and `Qmomentsb` of Model/Pg2Multi.lean with every operation replaced by what a floating point arithmetic may return.  The arithmetic
is a parameter: a theorem assumes of it only what it says (a relative error, or rounding to nearest as in IEEE 754).  A run is a relation;
different libraries and summation orders give different runs.

Simplification: the range of exponents is unbounded (no overflow, no underflow).  The sign of zero is not modelled.
-/

namespace Newt.Flt

/-- A floating point arithmetic.  `op x y`: the operation (`+`, `*`, `/`, `sqrt`, a constant) whose exact result is `x` may return `y`.
`lib x y`: the library function (`arccos`, `arctan2`, a power) whose exact result is `x` may return `y`.
`harm m n phi theta Y`: `sp.sph_harm(m, n, phi, theta)` may return `Y`. -/
structure Arith where
  op : ℝ → ℝ → Prop
  lib : ℝ → ℝ → Prop
  harm : ℤ → ℕ → ℝ → ℝ → ℂ → Prop

/-- `r = np.sqrt(massArray[:, 1]**2 + massArray[:, 2]**2 + massArray[:, 3]**2)`, one row.  newt/pg2Multi.py:126, 171. -/
def Rad (a : Arith) (p : Pt) (r : ℝ) : Prop :=
  ∃ s : V3, (∀ i, a.op (p.pos i ^ 2) (s i)) ∧ ∃ t t', a.op (s 0 + s 1) t ∧ a.op (t + s 2) t' ∧ a.op (Real.sqrt t') r

/-- `theta = np.arccos(massArray[:, 3]/r)`, one row; no value (NaN) if the computed quotient exceeds one.  newt/pg2Multi.py:128, 175. -/
def Theta (a : Arith) (p : Pt) (r theta : ℝ) : Prop := ∃ c, a.op (p.pos 2 / r) c ∧ |c| ≤ 1 ∧ a.lib (Real.arccos c) theta

/-- `phi = np.arctan2(massArray[:, 2], massArray[:, 1]) % (2*np.pi)`, one row: the remainder of an angle within one turn is the angle itself,
plus one (rounded) turn if it is negative.  newt/pg2Multi.py:129, 176. -/
def Phi (a : Arith) (p : Pt) (phi : ℝ) : Prop :=
  ∃ b turn, a.lib (arctan2 (p.pos 1) (p.pos 0)) b ∧ a.op (2 * Real.pi) turn ∧ ((0 ≤ b ∧ phi = b) ∨ (b < 0 ∧ a.op (b + turn) phi))

/-- A sum in any order (numpy sums pairwise, in blocks that depend on the machine). -/
inductive Acc (op : ℝ → ℝ → Prop) {n : ℕ} (x : Fin n → ℝ) : Finset (Fin n) → ℝ → Prop
  | one (j : Fin n) : Acc op x {j} (x j)
  | add {S S' : Finset (Fin n)} {s s' z : ℝ} : Disjoint S S' → Acc op x S s → Acc op x S' s' → op (s + s') z → Acc op x (S ∪ S') z

/-- `np.sum` of a real array; the sum over no entries is zero. -/
def Sum (op : ℝ → ℝ → Prop) (xs : List ℝ) (s : ℝ) : Prop := (xs = [] ∧ s = 0) ∨ Acc op xs.get Finset.univ s

/-- `np.sum` of a complex array: both components. -/
def CSum (op : ℝ → ℝ → Prop) (zs : List ℂ) (s : ℂ) : Prop := Sum op (zs.map Complex.re) s.re ∧ Sum op (zs.map Complex.im) s.im

/-- `qlms[0, l] = np.sum(massArray[:, 0]/np.sqrt(4*np.pi))`.  newt/pg2Multi.py:132-133. -/
def Q00 (a : Arith) (A : PtArray) (s : ℝ) : Prop :=
  ∃ t c xs, a.op (4 * Real.pi) t ∧ a.op (Real.sqrt t) c ∧ List.Forall₂ (fun p x => a.op (p.mass / c) x) A xs ∧ Sum a.op xs s

/-- One row of `np.conj(sp.sph_harm(m, n, phi, theta))*(mass*r**n)`: a complex array times a real one is two rounded products.
newt/pg2Multi.py:136-139. -/
def InnerTerm (a : Arith) (m : ℤ) (n : ℕ) (x : (Pt × ℝ) × ℝ × ℝ) (z : ℂ) : Prop :=
  ∃ (Y : ℂ) (rl w : ℝ), a.harm m n x.2.1 x.2.2 Y ∧ a.lib (x.1.2 ^ n) rl ∧ a.op (x.1.1.mass * rl) w ∧ a.op (Y.re * w) z.re ∧ a.op (-Y.im * w) z.im

/-- The angles of one row with its computed radius.  newt/pg2Multi.py:128-129, 175-176. -/
def Angles (a : Arith) (x : Pt × ℝ) (ang : ℝ × ℝ) : Prop := Phi a x.1 ang.1 ∧ Theta a x.1 x.2 ang.2

open Classical in
/-- `rids = np.where(r != 0)[0]` for the computed radii.  newt/pg2Multi.py:127. -/
noncomputable def rids (rs : List ℝ) : List ℕ := (List.range rs.length).filter fun i => decide (∃ r, rs[i]? = some r ∧ r ≠ 0)

open Classical in
/-- `massArray[rids]` with `r[rids]`.  newt/pg2Multi.py:128-129, 139. -/
noncomputable def offRows (A : PtArray) (rs : List ℝ) : List (Pt × ℝ) := (A.zip rs).filter fun x => decide (x.2 ≠ 0)

/-- `qmoments(l, massArray)` may return `q`.  As in the exact model the filtered angles are filtered once more (`phi[rids]`), which raises if an
index is out of bounds (then there is no run).  Filling in the negative orders is exact.  newt/pg2Multi.py:107-148. -/
def qmoments (a : Arith) (L : ℕ) (A : PtArray) (q : Mom L) : Prop :=
  ∃ (f : ℕ → ℤ → ℂ) (rs : List ℝ) (ang : List (ℝ × ℝ)) (q00 : ℝ),
    List.Forall₂ (Rad a) A rs ∧ List.Forall₂ (Angles a) (offRows A rs) ang ∧ Q00 a A q00 ∧
    (L = 0 ∨ ∃ ang', takeIds ang (rids rs) = some ang' ∧ ∀ (n : ℕ) (m : ℤ), 1 ≤ n → n ≤ L → 0 ≤ m → m ≤ n →
      ∃ zs, List.Forall₂ (InnerTerm a m n) ((offRows A rs).zip ang') zs ∧ CSum a.op zs (f n m)) ∧
    q = (Mom.ofFn L fun n m => if n = 0 then (if m = 0 then (q00 : ℂ) else 0) else if 0 ≤ m ∧ m ≤ n then f n m else 0).fillNeg

/-- One row of `massArray[:, 0]*sp.sph_harm(m, n, phi, theta)/r**(n+1)`: a real times a complex array is two rounded products; numpy divides a
complex array by a real one through the rounded reciprocal.  newt/pg2Multi.py:178-180. -/
def OuterTerm (a : Arith) (m : ℤ) (n : ℕ) (x : (Pt × ℝ) × ℝ × ℝ) (z : ℂ) : Prop :=
  ∃ (Y b : ℂ) (rl s : ℝ), a.harm m n x.2.1 x.2.2 Y ∧ a.op (x.1.1.mass * Y.re) b.re ∧ a.op (x.1.1.mass * Y.im) b.im ∧ a.lib (x.1.2 ^ (n + 1)) rl ∧ rl ≠ 0 ∧
    a.op (1 / rl) s ∧ a.op (b.re * s) z.re ∧ a.op (b.im * s) z.im

/-- `Qmomentsb(l, massArray)` may return `Q`; the zero array if some computed radius vanishes.  newt/pg2Multi.py:151-189. -/
def Qmomentsb (a : Arith) (L : ℕ) (A : PtArray) (Q : Mom L) : Prop :=
  ∃ rs : List ℝ, List.Forall₂ (Rad a) A rs ∧
    ((0 ∈ rs ∧ Q = Mom.ofFn L fun _ _ => 0) ∨ (0 ∉ rs ∧ ∃ (f : ℕ → ℤ → ℂ) (ang : List (ℝ × ℝ)), List.Forall₂ (Angles a) (A.zip rs) ang ∧
      (∀ (n : ℕ) (m : ℤ), n ≤ L → 0 ≤ m → m ≤ n → ∃ zs, List.Forall₂ (OuterTerm a m n) ((A.zip rs).zip ang) zs ∧ CSum a.op zs (f n m)) ∧
      Q = (Mom.ofFn L fun n m => if 0 ≤ m ∧ m ≤ n then f n m else 0).fillNeg))

end Newt.Flt
