import Verif.Model.ForceFloat
import Verif.Model.Translations

/-!
# `cgCoeff` and `newt/translations.py` in floating point arithmetic

The routines of newt/clebschGordan.py and newt/translations.py with every operation replaced by what a floating point arithmetic may return (see
Model/Pg2Float.lean and Model/MultipoleFloat.lean).  A run is a relation.

Simplification: the range of exponents is unbounded (no overflow, no underflow; see Model/Range.lean for those), the sign of zero is not modelled;
products with the integers 0, 1 and -1 are exact.  Factors that the program computes once per loop may here differ from term to term (which allows
more runs).
-/

namespace Newt.Flt

/-- `fac1`.  newt/clebschGordan.py:61-63. -/
def CgFac1 (a : Arith) (j1 j2 J : ℤ) (f : ℝ) : Prop :=
  ∃ g1 g2 g3 g4 p q s v w, a.lib (gammaln (J + j1 - j2 + 1)) g1 ∧ a.lib (gammaln (J - j1 + j2 + 1)) g2 ∧ a.op (g1 + g2) p ∧
    a.lib (gammaln (j1 + j2 - J + 1)) g3 ∧ a.lib (gammaln (j1 + j2 + J + 2)) g4 ∧ a.op (g3 - g4) q ∧ a.op (p + q) s ∧ a.lib (Real.exp s) v ∧
    a.op ((2 * J + 1) * v) w ∧ a.op (Real.sqrt w) f

/-- `g = gammaln(x1) + gammaln(x2); g += gammaln(x3) + gammaln(x4); g += gammaln(x5) + gammaln(x6)`.  newt/clebschGordan.py:64-66, 70-72. -/
def Gam6 (a : Arith) (x1 x2 x3 x4 x5 x6 s : ℝ) : Prop :=
  ∃ g1 g2 g3 g4 g5 g6 p q t r, a.lib (gammaln x1) g1 ∧ a.lib (gammaln x2) g2 ∧ a.op (g1 + g2) p ∧ a.lib (gammaln x3) g3 ∧ a.lib (gammaln x4) g4 ∧
    a.op (g3 + g4) q ∧ a.op (p + q) t ∧ a.lib (gammaln x5) g5 ∧ a.lib (gammaln x6) g6 ∧ a.op (g5 + g6) r ∧ a.op (t + r) s

/-- `fac2`.  newt/clebschGordan.py:64-67. -/
def CgFac2 (a : Arith) (j1 j2 m1 m2 J M : ℤ) (f : ℝ) : Prop :=
  ∃ s v, Gam6 a (J + M + 1) (J - M + 1) (j1 - m1 + 1) (j1 + m1 + 1) (j2 - m2 + 1) (j2 + m2 + 1) s ∧ a.lib (Real.exp s) v ∧ a.op (Real.sqrt v) f

/-- `(-1)**k/denFac`.  newt/clebschGordan.py:70-74. -/
def CgTerm (a : Arith) (j1 j2 m1 m2 J k : ℤ) (t : ℝ) : Prop :=
  ∃ s v, Gam6 a (k + 1) (j1 + j2 - J - k + 1) (j1 - m1 - k + 1) (j2 + m2 - k + 1) (J - j2 + m1 + k + 1) (J - j1 - m2 + k + 1) s ∧ a.lib (Real.exp s) v ∧
    a.op ((-1) ^ k / v) t

/-- `delta*fac1*fac2*sumCG`.  newt/clebschGordan.py:57-76. -/
def CgBody (a : Arith) (delta : ℝ) (j1 j2 m1 m2 J M : ℤ) (c : ℝ) : Prop :=
  ∃ fac1 fac2 ts sumCG p, CgFac1 a j1 j2 J fac1 ∧ CgFac2 a j1 j2 m1 m2 J M fac2 ∧
    List.Forall₂ (CgTerm a j1 j2 m1 m2 J) (zrange (max (max 0 (j2 - m1 - J)) (j1 + m2 - J)) (min (min (j1 + j2 - J) (j1 - m1)) (j2 + m2))) ts ∧
    Adds a.op ts 0 sumCG ∧ a.op (delta * fac1 * fac2) p ∧ a.op (p * sumCG) c

/-- `cgCoeff(j1, j2, m1, m2, J, M)` may return `c`.  newt/clebschGordan.py:41-77. -/
def cgCoeff (a : Arith) (j1 j2 m1 m2 J M : ℤ) (c : ℝ) : Prop :=
  if j1 < |m1| ∨ j2 < |m2| ∨ J < |M| then c = 0
  else if J > j1 + j2 ∨ J < |j1 - j2| then c = 0
  else if M < 0 then CgBody a ((if M = m1 + m2 then 1 else 0) * (-1) ^ (J - j1 - j2)) j1 j2 (-m1) (-m2) J (-M) c
  else CgBody a (if M = m1 + m2 then 1 else 0) j1 j2 m1 m2 J M c

/-- `np.sqrt(4.*np.pi*np.exp(sp.gammaln(x) - sp.gammaln(y) - sp.gammaln(z)))`.  newt/translations.py:56-57, 115-116, 176-177. -/
def TrFac (a : Arith) (x y z f : ℝ) : Prop :=
  ∃ g1 g2 g3 h s v p w, a.lib (gammaln x) g1 ∧ a.lib (gammaln y) g2 ∧ a.op (g1 - g2) h ∧ a.lib (gammaln z) g3 ∧ a.op (h - g3) s ∧ a.lib (Real.exp s) v ∧
    a.op (4 * Real.pi) p ∧ a.op (p * v) w ∧ a.op (Real.sqrt w) f

/-- `cFac*y*q`, from the left, with `cFac = fac*cg`, and `sgn` for the factor `(-1)**mP` of `translate_q2Q`.  newt/translations.py:62-63, 121-122, 182-183. -/
def TrTerm (a : Arith) (fac c sgn : ℝ) (y q t : ℂ) : Prop := ∃ cf z, a.op (fac * c) cf ∧ CScale a (cf * sgn) y z ∧ CMul a z q t

/-- `rP`, `phiP` and `thetaP` of the displacement.  newt/translations.py:35, 38-39, 96, 99-100, 157-159. -/
def Disp (a : Arith) (d : V3) (r phi theta : ℝ) : Prop :=
  Rad a ⟨1, d⟩ r ∧ a.lib (arctan2 (d 1) (d 0)) phi ∧ Theta a ⟨1, d⟩ r theta

/-- The indices `l`, `m` of the terms of entry `[L, M]`.  newt/translations.py:54, 59-61. -/
def innerIdx (L : ℕ) (M : ℤ) : List (ℕ × ℤ) :=
  (List.range (L + 1)).flatMap fun l : ℕ => ((zrange (-(l : ℤ)) l).filter fun m : ℤ => decide (|M - m| ≤ (L - l : ℕ))).map fun m : ℤ => (l, m)

/-- `translate_qlm(qlm, rPrime)` may return `q'`.  Filling in the negative orders is exact.  newt/translations.py:35-71. -/
def translate_qlm (a : Arith) {LMax : ℕ} (q : Mom LMax) (d : V3) (q' : Mom LMax) : Prop :=
  (Rad a ⟨1, d⟩ 0 ∧ q' = q) ∨ ∃ (r phi theta : ℝ) (Y f : ℕ → ℤ → ℂ), r ≠ 0 ∧ Disp a d r phi theta ∧
    (∀ (l : ℕ) (m : ℤ), l ≤ LMax → m.natAbs ≤ l → a.harm m l phi theta (Y l m)) ∧
    (∀ (L : ℕ) (M : ℤ), L ≤ LMax → 0 ≤ M → M ≤ L → ∃ ts, List.Forall₂ (fun (i : ℕ × ℤ) t => ∃ f0 rl fac c, TrFac a (2 * L + 2) (2 * (L - i.1 : ℕ) + 2) (2 * i.1 + 2) f0 ∧
        a.lib (r ^ (L - i.1)) rl ∧ a.op (f0 * rl) fac ∧ cgCoeff a (L - i.1 : ℕ) i.1 (M - i.2) i.2 L M c ∧
        TrTerm a fac c 1 ((starRingEnd ℂ) (Y (L - i.1) (M - i.2))) (q.get i.1 i.2) t) (innerIdx L M) ts ∧ CAdds a ts 0 (f L M)) ∧
    q' = (Mom.ofFn LMax fun L M => if 0 ≤ M ∧ M ≤ L then f L M else 0).fillNeg

/-- The indices `l`, `m` of the terms of entry `[L, M]`.  newt/translations.py:112, 118-120. -/
def outerIdx (LMax L : ℕ) (M : ℤ) : List (ℕ × ℤ) :=
  (List.range (LMax + 1 - L)).flatMap fun j : ℕ => ((zrange (-((L + j : ℕ) : ℤ)) (L + j : ℕ)).filter fun m : ℤ => decide (|M - m| ≤ j ∧ j ≤ LMax)).map fun m : ℤ => (L + j, m)

/-- `translate_Qlmb(Qlm, rPrime)` may return `Q'`.  newt/translations.py:96-132. -/
def translate_Qlmb (a : Arith) {LMax : ℕ} (Q : Mom LMax) (d : V3) (Q' : Mom LMax) : Prop :=
  (Rad a ⟨1, d⟩ 0 ∧ Q' = Q) ∨ ∃ (r phi theta : ℝ) (Y f : ℕ → ℤ → ℂ), r ≠ 0 ∧ Disp a d r phi theta ∧
    (∀ (l : ℕ) (m : ℤ), l ≤ LMax → m.natAbs ≤ l → a.harm m l phi theta (Y l m)) ∧
    (∀ (L : ℕ) (M : ℤ), L ≤ LMax → 0 ≤ M → M ≤ L → ∃ ts, List.Forall₂ (fun (i : ℕ × ℤ) t => ∃ f0 rl fac c, TrFac a (2 * i.1 + 1) (2 * (i.1 - L : ℕ) + 2) (2 * L + 1) f0 ∧
        a.lib (r ^ (i.1 - L)) rl ∧ a.op (f0 * rl) fac ∧ cgCoeff a (i.1 - L : ℕ) i.1 (M - i.2) i.2 L M c ∧
        TrTerm a fac c 1 (Y (i.1 - L) (M - i.2)) (Q.get i.1 i.2) t) (outerIdx LMax L M) ts ∧ CAdds a ts 0 (f L M)) ∧
    Q' = (Mom.ofFn LMax fun L M => if 0 ≤ M ∧ M ≤ L then f L M else 0).fillNeg

/-- The indices `lP`, `mP` of the terms of entry `[L, M]`.  newt/translations.py:173, 179-181. -/
def crossIdx (LMax L : ℕ) (M : ℤ) : List (ℕ × ℤ) :=
  (List.range (LMax + 1)).flatMap fun l : ℕ => ((zrange (-(l : ℤ)) l).filter fun m : ℤ => decide (|M + m| ≤ (L + l : ℕ))).map fun m : ℤ => (l, m)

/-- `translate_q2Q(qlm, rPrime)` may return `Q'`; no run for a vanishing displacement (NaN).  newt/translations.py:157-187. -/
def translate_q2Q (a : Arith) {LMax : ℕ} (q : Mom LMax) (d : V3) (Q' : Mom LMax) : Prop :=
  ∃ (r phi theta : ℝ) (Y f : ℕ → ℤ → ℂ), r ≠ 0 ∧ Disp a d r phi theta ∧
    (∀ (l : ℕ) (m : ℤ), l ≤ 2 * LMax → m.natAbs ≤ l → a.harm m l phi theta (Y l m)) ∧
    (∀ (L : ℕ) (M : ℤ), L ≤ LMax → M.natAbs ≤ L → ∃ ts, List.Forall₂ (fun (i : ℕ × ℤ) t => ∃ f0 rl fac c,
        TrFac a (2 * (L + i.1 : ℕ) + 1) (2 * i.1 + 2) (2 * L + 1) f0 ∧
        a.lib (r ^ (L + i.1 + 1)) rl ∧ a.op (f0 / rl) fac ∧ cgCoeff a i.1 (L + i.1 : ℕ) (-i.2) (M + i.2) L M c ∧
        TrTerm a fac c ((-1) ^ i.2) (Y (L + i.1) (M + i.2)) (q.get i.1 i.2) t) (crossIdx LMax L M) ts ∧ CAdds a ts 0 (f L M)) ∧
    Q' = Mom.ofFn LMax fun L M => if M.natAbs ≤ L then f L M else 0

end Newt.Flt
