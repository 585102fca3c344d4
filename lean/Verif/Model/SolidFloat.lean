import Verif.Model.RecFloat
import Verif.Model.Qlm

/-!
# `newt/qlm.py` in floating point arithmetic: spheres, cylinders, annular sections and cones

The constructors `sphere`, `cylinder`, `annulus` and `cone` with every operation replaced by what a floating point arithmetic may return (see Model/Pg2Float.lean and
Model/MultipoleFloat.lean).  A run is a relation.

Simplification: the range of exponents is unbounded (no overflow, no underflow; see Model/Range.lean and Model/RangeSolids.lean for those), the sign of zero is not modelled;
products with the integers 1 and -1, and with powers of two, are exact; `np.sinc(0)`, which numpy evaluates as `sin(y)/y` at `y = pi*1e-20`, is exactly 1.
Factors that the program computes once per loop may here differ from term to term (which allows more runs).
-/

namespace Newt.Flt

/-- `mass*np.sqrt(1/(4.*np.pi))`.  newt/qlm.py:106. -/
def SolFactor (a : Arith) (pi0 mass f : ℝ) : Prop := ∃ i s, a.op (1 / (4 * pi0)) i ∧ a.op (Real.sqrt i) s ∧ a.op (mass * s) f

/-- `np.sqrt(np.exp(sp.gammaln(l+m+1)+sp.gammaln(l-m+1)))`.  newt/qlm.py:114, 169. -/
def GamRoot (a : Arith) (l m : ℕ) (r : ℝ) : Prop :=
  ∃ g1 g2 s v, a.lib (gammaln ((l : ℝ) + m + 1)) g1 ∧ a.lib (gammaln ((l : ℝ) - m + 1)) g2 ∧ a.op (g1 + g2) s ∧ a.lib (Real.exp s) v ∧ a.op (Real.sqrt v) r

/-- `np.sinc(m*phih/np.pi)`, which multiplies its argument by `np.pi` again.  newt/qlm.py:115, 170. -/
def Sinc (a : Arith) (pi0 : ℝ) (m : ℕ) (phih v : ℝ) : Prop :=
  (m = 0 ∧ v = 1) ∨ (m ≠ 0 ∧ ∃ x1 x2 y s, a.op (m * phih) x1 ∧ a.op (x1 / pi0) x2 ∧ a.op (pi0 * x2) y ∧ a.lib (Real.sin y) s ∧ a.op (s / y) v)

/-- `fac2` for the factor `F` of the degree.  newt/qlm.py:114-115, 169-170. -/
def SecFac (a : Arith) (pi0 F : ℝ) (l m : ℕ) (phic phih : ℝ) (z : ℂ) : Prop :=
  ∃ r f v E w, GamRoot a l m r ∧ a.op (F * r) f ∧ Sinc a pi0 m phih v ∧ ExpI a m phic E ∧ CScale a v E w ∧ CScale a f w z

/-- One term of the sum over `k` of `annulus`.  newt/qlm.py:119-122. -/
def AnnTerm (a : Arith) (H Ri Ro : ℝ) (l m k : ℕ) (t : ℝ) : Prop :=
  ∃ h D q Po Pi d g1 g2 g3 s1 s2 g e, a.lib (H ^ (l - 2 * k - m)) h ∧ a.op ((2 : ℝ) ^ ((l : ℤ) - 1) * (2 * k + m + 2)) D ∧ a.op ((-1) ^ (k + m) * h / D) q ∧
    a.lib (Ro ^ (2 * k + m + 2)) Po ∧ a.lib (Ri ^ (2 * k + m + 2)) Pi ∧ a.op (Po - Pi) d ∧
    a.lib (gammaln ((k : ℝ) + 1)) g1 ∧ a.lib (gammaln ((m : ℝ) + k + 1)) g2 ∧ a.op (g1 + g2) s1 ∧ a.lib (gammaln ((l : ℝ) - m - 2 * k + 2)) g3 ∧ a.op (s1 + g3) s2 ∧
    a.lib (Real.exp s2) g ∧ a.op (d / g) e ∧ a.op (q * e) t

/-- The entry `[l, L+m]` of `annulus` before the division; the accumulated sum is a complex number without imaginary part.  newt/qlm.py:112-125. -/
def AnnCell (a : Arith) (pi0 f0 H Ri Ro phic phih : ℝ) (l m : ℕ) (z : ℂ) : Prop :=
  if (l - m) % 2 = 0 then ∃ sq F ts S f, a.op (Real.sqrt (2 * l + 1)) sq ∧ a.op (f0 * sq) F ∧
    List.Forall₂ (AnnTerm a H Ri Ro l m) (List.range ((l - m) / 2 + 1)) ts ∧ Adds a.op ts 0 S ∧ SecFac a pi0 F l m phic phih f ∧ CMul a S f z
  else z = 0

open Classical in
/-- `annulus(L, mass, H, Ri, Ro, phic, phih)` may end with `r`.  Filling in the negative orders is exact.  newt/qlm.py:106-133. -/
def annulus (a : Arith) (L : ℕ) (mass H Ri Ro phic phih : ℝ) (r : Qlm.Res L) : Prop :=
  ∃ pi0, a.op Real.pi pi0 ∧ if H ≤ 0 ∨ Ro < Ri ∨ phih ≤ 0 ∨ pi0 < phih ∨ Ri < 0 then r = .valueError else
    ∃ Po Pi rfac f0, a.lib (Ro ^ 2) Po ∧ a.lib (Ri ^ 2) Pi ∧ a.op (Po - Pi) rfac ∧ SolFactor a pi0 mass f0 ∧ if rfac = 0 then r = .nan else
      ∃ f : ℕ → ℕ → ℂ, (∀ l m : ℕ, l ≤ L → m ≤ l → ∃ z, AnnCell a pi0 f0 H Ri Ro phic phih l m z ∧ CDiv a z rfac (f l m)) ∧ r = .ok (Qlm.fill L f)

/-- `3*mass*np.sqrt(1/(4.*np.pi))`.  newt/qlm.py:162. -/
def ConeFactor (a : Arith) (pi0 mass f : ℝ) : Prop := ∃ t i s, a.op (3 * mass) t ∧ a.op (1 / (4 * pi0)) i ∧ a.op (Real.sqrt i) s ∧ a.op (t * s) f

/-- `fac`.  newt/qlm.py:167. -/
def ConeFac (a : Arith) (f0 : ℝ) (l : ℕ) (F : ℝ) : Prop :=
  ∃ sq p g x, a.op (Real.sqrt (2 * l + 1)) sq ∧ a.op (f0 * sq) p ∧ a.lib (gammaln ((l : ℝ) + 4)) g ∧ a.lib (Real.exp g) x ∧ a.op (p / x) F

/-- One term of the sum over `k` of `cone`.  newt/qlm.py:173-176. -/
def ConeTerm (a : Arith) (P R : ℝ) (l m k : ℕ) (t : ℝ) : Prop :=
  ∃ g1 g2 g3 s1 s2 p r q v x, a.lib (gammaln (2 * k + m + 2)) g1 ∧ a.lib (gammaln ((k : ℝ) + 1)) g2 ∧ a.lib (gammaln ((m : ℝ) + k + 1)) g3 ∧ a.op (g2 + g3) s1 ∧
    a.op (g1 - s1) s2 ∧ a.lib (P ^ (l - 2 * k - m)) p ∧ a.lib (R ^ (2 * k + m)) r ∧ a.op ((-1) ^ (k + m) * p * r) q ∧ a.op (q / (2 : ℝ) ^ ((2 * k + m : ℤ) - 1)) v ∧
    a.lib (Real.exp s2) x ∧ a.op (v * x) t

/-- The entry `[l, L+m]` of `cone`.  newt/qlm.py:166-178. -/
def ConeCell (a : Arith) (pi0 f0 P R phic phih : ℝ) (l m : ℕ) (z : ℂ) : Prop :=
  ∃ F ts S f, ConeFac a f0 l F ∧ List.Forall₂ (ConeTerm a P R l m) (List.range ((l - m) / 2 + 1)) ts ∧ Adds a.op ts 0 S ∧ SecFac a pi0 F l m phic phih f ∧ CMul a S f z

open Classical in
/-- `cone(L, mass, P, R, phic, phih)` may end with `r`.  newt/qlm.py:162-184. -/
def cone (a : Arith) (L : ℕ) (mass P R phic phih : ℝ) (r : Qlm.Res L) : Prop :=
  ∃ pi0, a.op Real.pi pi0 ∧ if P ≤ 0 ∨ R ≤ 0 ∨ phih ≤ 0 ∨ pi0 < phih then r = .valueError else
    ∃ (f0 : ℝ) (f : ℕ → ℕ → ℂ), ConeFactor a pi0 mass f0 ∧ (∀ l m : ℕ, l ≤ L → m ≤ l → ConeCell a pi0 f0 P R phic phih l m (f l m)) ∧ r = .ok (Qlm.fill L f)

/-- `Slk[l, 0]` from `Slk[l-2, 0]`, for `l = 2 n + 2`.  newt/qlm.py:69. -/
def SlkFirst (a : Arith) (H : ℝ) (n : ℕ) (s s' : ℝ) : Prop :=
  ∃ h x y, a.lib (H ^ 2) h ∧ a.op ((2 * n + 1) * h) x ∧ a.op (x / (4 * (2 * n + 3))) y ∧ a.op (y * s) s'

/-- `Slk[l, k+1]` from `Slk[l, k]`, for `l = 2 n`.  newt/qlm.py:70-71. -/
def SlkNext (a : Arith) (H R : ℝ) (n k : ℕ) (s s' : ℝ) : Prop :=
  ∃ x y z r q, a.op (-s * (2 * n - 2 * (k + 1) + 3)) x ∧ a.op (x * (2 * n - 2 * (k + 1) + 2)) y ∧ a.op (y / ((k + 1 + 1) * (k + 1))) z ∧ a.op (R / H) r ∧
    a.lib (r ^ 2) q ∧ a.op (z * q) s'

/-- The table `Slk`: `S n k` is `Slk[2 n, k]`.  newt/qlm.py:62-63, 68-71. -/
def SlkTab (a : Arith) (L : ℕ) (H R : ℝ) (S : ℕ → ℕ → ℝ) : Prop :=
  S 0 0 = 1 ∧ (∀ n, 2 * (n + 1) ≤ L → SlkFirst a H n (S n 0) (S (n + 1) 0)) ∧
    (∀ n k : ℕ, 2 * n ≤ L → k < n → SlkNext a H R n k (S n k) (S n (k + 1))) ∧ ∀ n k : ℕ, n < k → S n k = 0

/-- The entry `[l, L]` of `cylinder` for an even degree that is not zero; `np.sum` adds the whole row in any order.  newt/qlm.py:72. -/
def CylCell (a : Arith) (L : ℕ) (f0 : ℝ) (S : ℕ → ℕ → ℝ) (l : ℕ) (v : ℝ) : Prop :=
  ∃ sq F s, a.op (Real.sqrt (2 * l + 1)) sq ∧ a.op (f0 * sq) F ∧ Sum a.op ((List.range (L / 2 + 1)).map (S (l / 2))) s ∧ a.op (F * s) v

open Classical in
/-- `cylinder(L, mass, H, R)` may end with `r`.  newt/qlm.py:61-73. -/
def cylinder (a : Arith) (L : ℕ) (mass H R : ℝ) (r : Qlm.Res L) : Prop :=
  if H ≤ 0 ∨ R ≤ 0 then r = .valueError else
    ∃ (pi0 f0 : ℝ) (S : ℕ → ℕ → ℝ) (v : ℕ → ℝ), a.op Real.pi pi0 ∧ SolFactor a pi0 mass f0 ∧ SlkTab a L H R S ∧
      (∀ l ≤ L, l ≠ 0 → l % 2 = 0 → CylCell a L f0 S l (v l)) ∧
      r = .ok (Mom.ofFn L fun l m => if m = 0 ∧ l = 0 then (f0 : ℂ) else if m = 0 ∧ l % 2 = 0 then (v l : ℂ) else 0)

/-- `sphere(L, mass, R)` may return `q`.  newt/qlm.py:31-34. -/
def sphere (a : Arith) (L : ℕ) (mass _R : ℝ) (q : Mom L) : Prop :=
  ∃ pi0 s v, a.op Real.pi pi0 ∧ a.op (Real.sqrt (4 * pi0)) s ∧ a.op (mass / s) v ∧ q = Mom.ofFn L fun l m => if l = 0 ∧ m = 0 then (v : ℂ) else 0

end Newt.Flt
