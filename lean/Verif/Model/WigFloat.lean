import Verif.Model.TransFloat
import Verif.Model.Rotations

/-!
# `Dlmn`, `Dl` and `rotate_qlm_Ds` in floating point arithmetic

The explicit Wigner matrices of newt/rotations.py and their application to moments with every operation replaced by what a floating point arithmetic
may return (see Model/Pg2Float.lean and Model/MultipoleFloat.lean).  A run is a relation.

Simplification: the range of exponents is unbounded (no overflow, no underflow; see Model/Range.lean for those), the sign of zero is not modelled;
halving an angle and products with the integers 1 and -1 are exact.  Factors that the program computes once per loop may here differ from term to
term (which allows more runs).
-/

namespace Newt.Flt

/-- `sp.factorial(x)*sp.factorial(y)`.  newt/rotations.py:409-410, 413-414. -/
def FactProd (a : Arith) (x y : ℤ) (g : ℝ) : Prop := ∃ f f', a.lib (spFactorial x) f ∧ a.lib (spFactorial y) f' ∧ a.op (f * f') g

/-- One term of the sum: the powers of the cosine and the sine, from the left, then the two divisions.  newt/rotations.py:408-410. -/
def DTerm (a : Arith) (l : ℕ) (m n : ℤ) (beta : ℝ) (k : ℤ) (v : ℝ) : Prop :=
  ∃ c s cp sp p g w h, a.lib (Real.cos (beta / 2)) c ∧ a.lib (Real.sin (beta / 2)) s ∧ a.lib (c ^ (2 * l + m - n - 2 * k).toNat) cp ∧
    a.lib (s ^ (n - m + 2 * k).toNat) sp ∧ a.op ((-1) ^ k * cp * sp) p ∧ FactProd a k (l + m - k) g ∧ a.op (p / g) w ∧
    FactProd a (l - n - k) (n - m + k) h ∧ a.op (w / h) v

/-- `np.exp(-1j*(alpha*n + gamma*m))`.  newt/rotations.py:412. -/
def Phase (a : Arith) (m n : ℤ) (alpha gamma : ℝ) (E : ℂ) : Prop :=
  ∃ p q y, a.op (alpha * n) p ∧ a.op (gamma * m) q ∧ a.op (p + q) y ∧ a.lib (Real.cos y) E.re ∧ a.lib (-Real.sin y) E.im

/-- `np.sqrt(sp.factorial(x)*sp.factorial(y))`.  newt/rotations.py:413-414. -/
def FactRoot (a : Arith) (x y : ℤ) (r : ℝ) : Prop := ∃ g, FactProd a x y g ∧ a.op (Real.sqrt g) r

/-- `Dlmn(l, m, n, alpha, beta, gamma)` may return `D`.  newt/rotations.py:404-415. -/
def Dlmn (a : Arith) (l : ℕ) (m n : ℤ) (alpha beta gamma : ℝ) (D : ℂ) : Prop :=
  ∃ ts s E z r w r', List.Forall₂ (DTerm a l m n beta) (zrange (max (m - n) 0) (min (l + m) (l - n))) ts ∧ Adds a.op ts 0 s ∧ Phase a m n alpha gamma E ∧
    CScale a s (E * (-1) ^ (n - m)) z ∧ FactRoot a (l - m) (l + m) r ∧ CScale a r z w ∧ FactRoot a (l - n) (l + n) r' ∧ CScale a r' w D

/-- `Dl(l, alpha, beta, gamma)` may return the matrix `D`.  newt/rotations.py:447-452. -/
def Dl (a : Arith) (l : ℕ) (alpha beta gamma : ℝ) (D : ℤ → ℤ → ℂ) : Prop :=
  ∀ n m : ℤ, n.natAbs ≤ l → m.natAbs ≤ l → Dlmn a l m n alpha beta gamma (D n m)

/-- The pairs of real factors of the real part of `sum_n D n * q n`. -/
noncomputable def dotRe (l : ℕ) (D q : ℤ → ℂ) : List (ℝ × ℝ) :=
  (zrange (-(l : ℤ)) l).flatMap fun n : ℤ => [((D n).re, (q n).re), (-(D n).im, (q n).im)]

/-- The pairs of real factors of the imaginary part. -/
noncomputable def dotIm (l : ℕ) (D q : ℤ → ℂ) : List (ℝ × ℝ) :=
  (zrange (-(l : ℤ)) l).flatMap fun n : ℤ => [((D n).re, (q n).im), ((D n).im, (q n).re)]

/-- One entry of `np.dot(d, q)`: the real products, each rounded or fused with an addition, summed in any order.  newt/rotations.py:304, 337. -/
def CDot (a : Arith) (l : ℕ) (D q : ℤ → ℂ) (z : ℂ) : Prop :=
  (∃ xs, List.Forall₂ (fun (i : ℝ × ℝ) x => Prod a i.1 i.2 x) (dotRe l D q) xs ∧ Sum a.op xs z.re) ∧
    ∃ xs, List.Forall₂ (fun (i : ℝ × ℝ) x => Prod a i.1 i.2 x) (dotIm l D q) xs ∧ Sum a.op xs z.im

/-- `rotate_qlm_Ds(qlm, ds, conj_trans)` may return `q'`; transposing and conjugating are exact.  newt/rotations.py:326-338. -/
def rotate_qlm_Ds (a : Arith) {LMax : ℕ} (q : Mom LMax) (ds : List (ℤ → ℤ → ℂ)) (conj_trans : Bool) (q' : Mom LMax) : Prop :=
  (ds.length ≠ LMax + 1 ∧ q' = q) ∨ (ds.length = LMax + 1 ∧ ∃ f : ℕ → ℤ → ℂ,
    (∀ (l : ℕ) (m : ℤ), 1 ≤ l → l ≤ LMax → m.natAbs ≤ l →
      CDot a l (fun n => if conj_trans then (starRingEnd ℂ) (ds.getD l 0 n m) else ds.getD l 0 m n) (fun n => q.get l n) (f l m)) ∧
    q' = Mom.ofFn LMax fun l m => if 1 ≤ l ∧ m.natAbs ≤ l then f l m else q.get l m)

end Newt.Flt
