import Verif.Model.Range

/-!
# The range of double precision numbers: closed-form solids and the force

The factor `sqrt((l+m)! (l-m)!)` of `newt/qlm.py` and the ratio of factorials of `newt/multipoleLib.py`, with the operations that follow them
up to the returned array, over the numbers of `Model/Range`.
-/

namespace Newt.Rng

open Classical

/-- Change of sign. -/
noncomputable def neg : FV → FV
  | .fin x => .fin (-x)
  | .inf s => .inf (!s)
  | .nan => .nan

/-- A complex double. -/
structure CV where
  re : FV
  im : FV

/-- A real number used as a complex one. -/
noncomputable def CV.ofReal (x : FV) : CV := ⟨x, .fin 0⟩

/-- Complex addition. -/
noncomputable def cadd (a b : CV) : CV := ⟨add a.re b.re, add a.im b.im⟩

/-- Complex multiplication. -/
noncomputable def cmul (a b : CV) : CV :=
  ⟨add (mul a.re b.re) (neg (mul a.im b.im)), add (mul a.re b.im) (mul a.im b.re)⟩

/-- numpy's division of a complex number by a real one (Smith's formula with imaginary part 0). -/
noncomputable def cdivr (a : CV) (r : FV) : CV :=
  if r = .fin 0 then ⟨div a.re r, div a.im r⟩ else
  let rat := div (.fin 0) r
  let scl := div (.fin 1) (add r (mul (.fin 0) rat))
  ⟨mul (add a.re (mul a.im rat)) scl, mul (add a.im (neg (mul a.re rat))) scl⟩

/-- `np.conj`. -/
noncomputable def cconj (a : CV) : CV := ⟨a.re, neg a.im⟩

/-- `np.sqrt(np.exp(sp.gammaln(l+m+1)+sp.gammaln(l-m+1)))`.  newt/qlm.py:114, 169, 223, 285, 348, 410, 471, 532, 592, 652. -/
noncomputable def lmfac (l m : ℤ) : FV := sqrt (exp (gammaln (l + m + 1) + gammaln (l - m + 1)))

/-- The routines of newt/qlm.py that contain `lmfac`; `N` is the number of sides. -/
inductive Solid where
  | annulus | cone | tri_iso_prism | tri_iso_prism2 | tri_prism | rect_prism | ngon_prism (N : ℕ) | tetrahedron | tetrahedron2 | pyramid

/-- The entries `(l, m)` a routine assigns: the ranges of its loops and the test `not (l-m) % 2`.  newt/qlm.py:111-117, 166-171, 220-226, 282-288,
345-350, 406-409, 468-474, 529-531, 589-591, 648-651. -/
def Solid.assigns (s : Solid) (l m : ℕ) : Prop :=
  m ≤ l ∧ match s with
    | .annulus | .tri_iso_prism | .tri_iso_prism2 | .tri_prism => (l - m) % 2 = 0
    | .cone | .tetrahedron | .tetrahedron2 => True
    | .rect_prism => l % 2 = 0 ∧ m % 2 = 0
    | .ngon_prism N => N ∣ m ∧ (l - m) % 2 = 0
    | .pyramid => m % 2 = 0

/-- What a routine has computed before the lines modelled here, left open: the factor `fac` of a degree, the product `u` of `sinc` and phase, the
sum `S` over `k` of an entry, the span `dy = y2-y1` and the factor `rfac`. -/
structure Before where
  fac : ℕ → FV
  u : ℕ → CV
  S : ℕ → ℕ → CV
  dy : FV
  rfac : FV

/-- `fac2`.  newt/qlm.py:114-115, 169-170, 223-224, 285-286, 348 with 367, 410-411, 471-472, 532, 592, 652. -/
noncomputable def Solid.fac2 (s : Solid) (b : Before) (l m : ℕ) : CV :=
  let f := CV.ofReal (mul (b.fac l) (lmfac l m))
  match s with
    | .tri_prism => CV.ofReal (div (mul (b.fac l) (lmfac l m)) b.dy)
    | .tetrahedron | .tetrahedron2 | .pyramid => f
    | _ => cmul f (b.u m)

/-- The entry of order `m ≥ 0` after the loops: `qlm[l, L+m] *= fac2`; entries that are not assigned are 0.  newt/qlm.py:125, 178, 241, 303, 367,
429, 491, 550, 610, 674; for `annulus` with `qlm /= rfac`, newt/qlm.py:127. -/
noncomputable def Solid.cell (s : Solid) (b : Before) (l : ℕ) (m : ℤ) : CV :=
  let c := if 0 ≤ m ∧ s.assigns l m.toNat then cmul (b.S l m.toNat) (s.fac2 b l m.toNat) else ⟨.fin 0, .fin 0⟩
  match s with
    | .annulus => cdivr c b.rfac
    | _ => c

/-- Entry `[l, L+m]` of the returned array: `qlm += np.conj(np.fliplr(qlm))*mfac; qlm[:, L] /= 2`.  newt/qlm.py:129-133, 180-184, 243-247, 305-309,
369-373, 431-435, 493-497, 552-556, 612-616, 676-680. -/
noncomputable def Solid.entry (s : Solid) (b : Before) (l : ℕ) (m : ℤ) : CV :=
  let v := cadd (s.cell b l m) (cmul (cconj (s.cell b l (-m))) (CV.ofReal (.fin ((-1) ^ m.natAbs))))
  if m = 0 then cdivr v (.fin 2) else v

/-- The root of the ratio of factorials in `multipole_force`.  newt/multipoleLib.py:92, 99-101. -/
noncomputable def forceRoot (lo mo l m : ℤ) : FV :=
  sqrt (exp (gammaln (l + m + 1) + gammaln (l - m + 1) - (gammaln (lo + mo + 1) + gammaln (lo - mo + 1))))

/-- The value added to one component of `force` for given `lo, mo, l, m`; `b` is `bX`, `bY` or `bZ`.  newt/multipoleLib.py:93-104. -/
noncomputable def forceTerm (fac : FV) (q Q b : ℤ → ℤ → CV) (lo mo l m : ℤ) : CV :=
  let lfac : ℝ := 2 * l + 1
  let lofac : ℝ := 2 * lo + 1
  let mofac := cmul (q lo mo) (CV.ofReal fac)
  let lmofac := cmul (cdivr mofac (.fin lfac)) (CV.ofReal (sqrt (div (.fin lfac) (.fin lofac))))
  let fac2 := cmul (cmul (Q l m) lmofac) (CV.ofReal (forceRoot lo mo l m))
  cmul fac2 (b (l - lo) (m - mo))

/-- One component of `multipole_force(LMax, qlm, Qlmb, x, y, z, cnst)`.  newt/multipoleLib.py:85-106. -/
noncomputable def multipole_force (LMax : ℕ) (fac : FV) (q Q b : ℤ → ℤ → CV) : CV :=
  (((irange 0 LMax).flatMap fun lo : ℤ => (irange (-lo) lo).flatMap fun mo : ℤ => (irange (lo + 1) LMax).flatMap fun l : ℤ =>
    (irange (mo - (l - lo)) (mo + (l - lo))).map fun m : ℤ => forceTerm fac q Q b lo mo l m)).foldl cadd ⟨.fin 0, .fin 0⟩

end Newt.Rng
