import Verif.Model.Qlm
import Verif.Model.Translations
import Verif.Model.Rotations
import Verif.Model.MultipoleLib

/-!
# The example scripts `newt/example/test_ligo.py`, `test_ligo2.py`, `test_virgo.py`

The dimensions and the degree are parameters; the scripts' values are given in Props/Examples.
Plotting and printing are left out.
-/

namespace Newt.Ex

variable {L : ℕ}

/-- `p += q` (and `p + q`) on moment arrays of one degree.  newt/example/test_ligo.py:32-36,
newt/example/test_virgo.py:35. -/
noncomputable def madd (p q : Mom L) : Mom L := Mom.ofFn L fun l m => p.get l m + q.get l m

/-- `tot += rot.rotate_qlm(q, a, 0, 0)` for each of the angles in turn.  newt/example/test_ligo.py:32-33, 36. -/
noncomputable def addTurned (tot q : Mom L) : List ℝ → Option (Mom L)
  | [] => some tot
  | a :: as => (rotate_qlm q a 0 0).bind fun r => addTurned (madd tot r) q as

/-- The finite array a constructor of `newt/qlm.py` returned; `none` = ValueError or non-finite entries. -/
def okOf : Qlm.Res L → Option (Mom L)
  | .ok q => some q
  | _ => none

/-- `cyltot`: three cylinders at distance `r3` and two at distance `r2` from the axis.
newt/example/test_ligo.py:28-36, newt/example/test_ligo2.py:31-38. -/
noncomputable def ligoRotor (LMax : ℕ) (mc hc rc r3 r2 : ℝ) : Option (Mom LMax) :=
  (okOf (Qlm.cylinder LMax mc hc rc)).bind fun cyl =>
    let cyl3i := translate_qlm cyl ![r3, 0, 0]
    let cyl2i := translate_qlm cyl ![r2, 0, 0]
    (addTurned cyl3i cyl3i [2 * Real.pi / 3, 4 * Real.pi / 3]).bind fun t =>
      addTurned (madd t cyl2i) cyl2i [Real.pi]

/-- `cylhtot`: the holes, with the hole's mass `mh`.  newt/example/test_ligo2.py:39-53. -/
noncomputable def ligoHoles (LMax : ℕ) (mh hc rc r3 r2 : ℝ) : Option (Mom LMax) :=
  (okOf (Qlm.cylinder LMax (-mh) hc rc)).bind fun cylh =>
    let cylh3i := translate_qlm cylh ![r3, 0, 0]
    let cylh2i := translate_qlm cylh ![r2, 0, 0]
    (addTurned cylh3i cylh3i [Real.pi / 3, 2 * Real.pi / 3, Real.pi, 4 * Real.pi / 3, 5 * Real.pi / 3]).bind fun t =>
      addTurned (madd t cylh2i) cylh2i [Real.pi / 2, Real.pi, 3 * Real.pi / 2]

/-- `arctot`: two opposite arcs.  newt/example/test_virgo.py:33-35. -/
noncomputable def virgoRotor (LMax : ℕ) (mc hc irc orc beta : ℝ) : Option (Mom LMax) :=
  (okOf (Qlm.annulus LMax (mc / 2) hc irc orc 0 beta)).bind fun arc => addTurned arc arc [Real.pi]

/-- `tm`: a cylinder turned on its side, its moments turned into outer moments about the rotor.
newt/example/test_ligo.py:39-41, newt/example/test_ligo2.py:57-59, newt/example/test_virgo.py:38-40. -/
noncomputable def mirror (LMax : ℕ) (mtm htm rtm dx dy : ℝ) : Option (Mom LMax) :=
  (okOf (Qlm.cylinder LMax mtm htm rtm)).bind fun tm =>
    (rotate_qlm tm (Real.pi / 2) (Real.pi / 2) (-Real.pi / 2)).bind fun tm => translate_q2Q tm ![dx, dy, 0]

/-- `forces[k]`, every angle computed from the original rotor.  newt/example/test_ligo.py:47-51,
newt/example/test_virgo.py:46-50. -/
noncomputable def forceAt (rotor tm : Mom L) (nAng k : ℕ) : Option (Fin 3 → ℂ) :=
  let dphi := 2 * Real.pi / nAng
  (rotate_qlm rotor (k * dphi) 0 0).bind fun cylk => multipole_force cylk tm 0 0 0 BIG_G

/-- The rotor array after `k` passes of the loop: each pass turns it by one step with precomputed matrices (one degree
more than needed is computed and dropped).  newt/example/test_ligo2.py:65-70. -/
noncomputable def stepped (rotor : Mom L) (dphi : ℝ) (k : ℕ) : Option (Mom L) :=
  (wignerDl (L + 1) dphi 0 0).map fun ds => (fun q => rotate_qlm_Ds q ds.dropLast false)^[k] rotor

/-- `forces[k]`, the rotor array turned step by step (`k` counts from 0, after the turn).
newt/example/test_ligo2.py:63-71. -/
noncomputable def forceStepped (rotor tm : Mom L) (nAng k : ℕ) : Option (Fin 3 → ℂ) :=
  (stepped rotor (2 * Real.pi / nAng) (k + 1)).bind fun q => multipole_force q tm 0 0 0 BIG_G

end Newt.Ex
