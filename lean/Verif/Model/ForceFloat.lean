import Verif.Model.MultipoleFloat

/-!
# `force_basis` and `multipole_force` in floating point arithmetic

The routines of newt/multipoleLib.py that turn moments into forces, with every operation replaced by what a floating point arithmetic may return
(see Model/Pg2Float.lean and Model/MultipoleFloat.lean).  A run is a relation.

Simplification: the range of exponents is unbounded (no overflow, no underflow), the sign of zero is not modelled; products with an exact zero are
exact.  Factors that the program computes once per loop may here differ from term to term (which allows more runs).
-/

namespace Newt.Flt

/-- A real number times a complex one: two rounded products. -/
def CScale (a : Arith) (s : ℝ) (z w : ℂ) : Prop := COp a (s * z) w

/-- A complex number divided by a real one: two rounded quotients (Python), or two products with the rounded reciprocal (numpy). -/
def CDiv (a : Arith) (z : ℂ) (d : ℝ) (w : ℂ) : Prop := COp a (z / d) w ∨ ∃ s, a.op (1 / d) s ∧ CScale a s z w

/-- `r2 = x**2 + y**2 + z**2`.  newt/multipoleLib.py:31. -/
def R2 (a : Arith) (x y z r2 : ℝ) : Prop :=
  ∃ sx sy sz t, a.op (x ^ 2) sx ∧ a.op (y ^ 2) sy ∧ a.op (z ^ 2) sz ∧ a.op (sx + sy) t ∧ a.op (t + sz) r2

/-- The entries `[l, L+l]` of row `l` (`n`) from row `l-1` (`p`); `x-1j*y` is exact.  newt/multipoleLib.py:34-37. -/
def FbTop (a : Arith) (x y : ℝ) (l : ℕ) (p n : FBRow) : Prop :=
  let w : ℂ := (x : ℂ) - Complex.I * y
  (∃ t, CMul a (-w) (p.yt (l - 1)) t ∧ CDiv a t (2 * l) (n.yt l)) ∧
  (∃ t s, CMul a (p.bX (l - 1)) w t ∧ COp a (p.yt (l - 1) + t) s ∧ CDiv a (-s) (2 * l) (n.bX l)) ∧
  (∃ t s, CMul a (p.bY (l - 1)) w t ∧ COp a (Complex.I * p.yt (l - 1) - t) s ∧ CDiv a s (2 * l) (n.bY l)) ∧
  (∃ t, CMul a (p.bZ (l - 1)) w t ∧ CDiv a (-t) (2 * l) (n.bZ l))

/-- The entries `[1, L]` of row 1.  newt/multipoleLib.py:38-42. -/
def FbFirst (a : Arith) (z : ℝ) (p n : FBRow) : Prop :=
  ∃ k, a.op (1 * z) k ∧ (∃ t, CScale a k (p.yt 0) t ∧ CDiv a t 1 (n.yt 0)) ∧ (∃ t, CScale a k (p.bX 0) t ∧ CDiv a t 1 (n.bX 0)) ∧
    (∃ t, CScale a k (p.bY 0) t ∧ CDiv a t 1 (n.bY 0)) ∧
    (∃ t s v, CScale a z (p.bZ 0) t ∧ COp a (p.yt 0 + t) s ∧ CScale a 1 s v ∧ CDiv a v 1 (n.bZ 0))

/-- The subtraction of `(2*c*ytilC[l-2, L+m] + r2*b[l-2, L+m])/l2m2` from `b[l, L+m]`.  newt/multipoleLib.py:49, 51, 53. -/
def FbSub (a : Arith) (c r2 d : ℝ) (v Y2 b2 out : ℂ) : Prop :=
  ∃ c2 s1 s2 s s', a.op (2 * c) c2 ∧ CScale a c2 Y2 s1 ∧ CScale a r2 b2 s2 ∧ COp a (s1 + s2) s ∧ CDiv a s d s' ∧ COp a (v - s') out

/-- The entries `[l, L+m]`, `m < l`, of row `l >= 2` (`n`) from rows `l-1` (`p`) and `l-2` (`pp`).  newt/multipoleLib.py:44-53. -/
def FbLow (a : Arith) (x y z r2 : ℝ) (l m : ℕ) (p pp n : FBRow) : Prop :=
  let d : ℝ := (l : ℝ) ^ 2 - (m : ℝ) ^ 2
  ∃ k, a.op ((2 * l - 1) * z) k ∧
    (∃ t1 t2 s, CScale a k (p.yt m) t1 ∧ CScale a r2 (pp.yt m) t2 ∧ COp a (t1 - t2) s ∧ CDiv a s d (n.yt m)) ∧
    (∃ t v, CScale a k (p.bX m) t ∧ CDiv a t d v ∧ FbSub a x r2 d v (pp.yt m) (pp.bX m) (n.bX m)) ∧
    (∃ t v, CScale a k (p.bY m) t ∧ CDiv a t d v ∧ FbSub a y r2 d v (pp.yt m) (pp.bY m) (n.bY m)) ∧
    (∃ t s g v, CScale a z (p.bZ m) t ∧ COp a (p.yt m + t) s ∧ CScale a (2 * l - 1) s g ∧ CDiv a g d v ∧
      FbSub a z r2 d v (pp.yt m) (pp.bZ m) (n.bZ m))

/-- The loop over `l`: the rows of the work arrays, zero for `m > l` (`np.zeros`).  newt/multipoleLib.py:20-23, 29-53. -/
def FbRows (a : Arith) (L : ℕ) (x y z : ℝ) (rows : ℕ → FBRow) : Prop :=
  ∃ r2, R2 a x y z r2 ∧ rows 0 = FBRow.init ∧
    (∀ l m : ℕ, l < m → (rows l).yt m = 0 ∧ (rows l).bX m = 0 ∧ (rows l).bY m = 0 ∧ (rows l).bZ m = 0) ∧ (∀ l, 1 ≤ l → l ≤ L → FbTop a x y l (rows (l - 1)) (rows l)) ∧ (1 ≤ L → FbFirst a z (rows 0) (rows 1)) ∧
    ∀ l, 2 ≤ l → l ≤ L → ∀ m, m < l → FbLow a x y z r2 l m (rows (l - 1)) (rows (l - 2)) (rows l)

/-- `force_basis(L, x, y, z)` may return `b`; no run if the call raises.  Filling in the negative orders is exact.  newt/multipoleLib.py:14-64. -/
def force_basis (a : Arith) (L : ℕ) (x y z : ℝ) (b : Mom L × Mom L × Mom L) : Prop :=
  (x = 0 ∧ y = 0 ∧ z = 0 ∧ Newt.force_basis L 0 0 0 = some b) ∨
  (¬ (x = 0 ∧ y = 0 ∧ z = 0) ∧ ∃ rows, FbRows a L x y z rows ∧
    b = ((momOfRows L fun l => (rows l).bX).fillNeg, (momOfRows L fun l => (rows l).bY).fillNeg, (momOfRows L fun l => (rows l).bZ).fillNeg))

/-- `range(a, b+1)`. -/
def zrange (a b : ℤ) : List ℤ := (List.range (b + 1 - a).toNat).map fun i : ℕ => a + i

/-- The indices `lo`, `mo`, `l`, `m` of the loops, in order.  newt/multipoleLib.py:89-98. -/
def forceIdx (L : ℕ) : List (ℕ × ℤ × ℕ × ℤ) :=
  (List.range (L + 1)).flatMap fun lo : ℕ => (zrange (-(lo : ℤ)) lo).flatMap fun mo : ℤ => (List.range (L - lo)).flatMap fun j : ℕ =>
    (zrange (mo - (j + 1 : ℕ)) (mo + (j + 1 : ℕ))).map fun m : ℤ => (lo, mo, lo + 1 + j, m)

/-- `np.sqrt(np.exp(gamsum))`.  newt/multipoleLib.py:92, 99-101. -/
def GamFac (a : Arith) (lo : ℕ) (mo : ℤ) (l : ℕ) (m : ℤ) (E : ℝ) : Prop :=
  ∃ g1 g2 g3 g4 h k s v, a.lib (gammaln (lo + mo + 1)) g1 ∧ a.lib (gammaln (lo - mo + 1)) g2 ∧ a.op (g1 + g2) h ∧
    a.lib (gammaln (l + m + 1)) g3 ∧ a.lib (gammaln (l - m + 1)) g4 ∧ a.op (g3 + g4) k ∧ a.op (k - h) s ∧ a.lib (Real.exp s) v ∧ a.op (Real.sqrt v) E

/-- `fac2` with `fac = 4*np.pi*cnst`, `mofac` and `lmofac`.  newt/multipoleLib.py:87-101. -/
def Fac2 (a : Arith) {L : ℕ} (q Q : Mom L) (fac : ℝ) (i : ℕ × ℤ × ℕ × ℤ) (f : ℂ) : Prop :=
  ∃ (mofac v lmofac w : ℂ) (t s E : ℝ), CScale a fac (q.get i.1 i.2.1) mofac ∧ CDiv a mofac (2 * i.2.2.1 + 1) v ∧
    a.op ((2 * i.2.2.1 + 1) / (2 * i.1 + 1)) t ∧ a.op (Real.sqrt t) s ∧ CScale a s v lmofac ∧ CMul a (Q.get i.2.2.1 i.2.2.2) lmofac w ∧
    GamFac a i.1 i.2.1 i.2.2.1 i.2.2.2 E ∧ CScale a E w f

/-- `force += t` for the terms `t` one after the other. -/
inductive CAdds (a : Arith) : List ℂ → ℂ → ℂ → Prop
  | nil (s : ℂ) : CAdds a [] s s
  | cons {y s s' t : ℂ} {ys : List ℂ} : COp a (s + y) s' → CAdds a ys s' t → CAdds a (y :: ys) s t

/-- One component of the force: `force[k] += fac2*b[l-lo, LMax+m-mo]`.  newt/multipoleLib.py:86, 102-104. -/
def ForceComp (a : Arith) {L : ℕ} (q Q b : Mom L) (fac : ℝ) (F : ℂ) : Prop :=
  ∃ ts, List.Forall₂ (fun (i : ℕ × ℤ × ℕ × ℤ) t => ∃ f, Fac2 a q Q fac i f ∧ CMul a f (b.get (i.2.2.1 - i.1) (i.2.2.2 - i.2.1)) t) (forceIdx L) ts ∧ CAdds a ts 0 F

/-- `multipole_force(LMax, qlm, Qlmb, x, y, z, cnst)` may return `F`.  newt/multipoleLib.py:68-106. -/
def multipole_force (a : Arith) {L : ℕ} (q Q : Mom L) (x y z cnst : ℝ) (F : Fin 3 → ℂ) : Prop :=
  ∃ b p fac, force_basis a L x y z b ∧ a.op (4 * Real.pi) p ∧ a.op (p * cnst) fac ∧
    ForceComp a q Q b.1 fac (F 0) ∧ ForceComp a q Q b.2.1 fac (F 1) ∧ ForceComp a q Q b.2.2 fac (F 2)

end Newt.Flt
