import Verif.Proofs.BigAnnBase

/-! # The double integrals behind the closed forms of `newt/bigQlm.py` `annulus` (rational cases)

Each theorem gives the two successive antiderivatives, checked by differentiation. -/

namespace Newt

open QlmNum

theorem ann_20 (H r0 r1 : ℝ) (hH : 0 < H) (h0 : 0 < r0) (h1 : r0 ≤ r1) :
    (4) * annInt 2 0 H r0 r1 = (((1) * H ^ 1) / dd r1 H ^ 1)
      - (((1) * H ^ 1) / dd r0 H ^ 1) := by
  refine annInt_eq 2 0 (4) H r0 r1 h0 h1 (fun r => ((1) * H ^ 1) / dd r H ^ 1)
    (fun r z => (evalL [0, (-1) * r ^ 1] z / dd r z ^ 3)) ?_ ?_ ?_
  · intro r hr
    have h := (dr_frac [(1) * H ^ 1] 0 1 r H hr)
    ann_dr h r H hr hH
  · intro r z hr
    have h := dz_frac [0, (-1) * r ^ 1] 3 r z hr
    ann_dz h r z hr
  · intro r hr
    ann_zero r hr

theorem ann_30 (H r0 r1 : ℝ) (hH : 0 < H) (h0 : 0 < r0) (h1 : r0 ≤ r1) :
    (36) * annInt 3 0 H r0 r1 = (((1) / r1 ^ 1) + ((-1) * r1 ^ 2) / dd r1 H ^ 3)
      - (((1) / r0 ^ 1) + ((-1) * r0 ^ 2) / dd r0 H ^ 3) := by
  refine annInt_eq 3 0 (36) H r0 r1 h0 h1 (fun r => ((1) / r ^ 1) + ((-1) * r ^ 2) / dd r H ^ 3)
    (fun r z => ((-1) / r ^ 2) + (evalL [(1) * r ^ 3, 0, (-2) * r ^ 1] z / dd r z ^ 5)) ?_ ?_ ?_
  · intro r hr
    have h := (dr_frac0 [(1)] 1 r hr).add
      (dr_frac [0, 0, (-1)] 0 3 r H hr)
    ann_dr h r H hr hH
  · intro r z hr
    have h := (dz_frac [(1) * r ^ 3, 0, (-2) * r ^ 1] 5 r z hr).const_add ((-1) / r ^ 2)
    ann_dz h r z hr
  · intro r hr
    ann_zero r hr

theorem ann_31 (H r0 r1 : ℝ) (hH : 0 < H) (h0 : 0 < r0) (h1 : r0 ≤ r1) :
    (-48) * annInt 3 1 H r0 r1 = (((1) * r1 ^ 3 / H ^ 1) / dd r1 H ^ 3)
      - (((1) * r0 ^ 3 / H ^ 1) / dd r0 H ^ 3) := by
  refine annInt_eq 3 1 (-48) H r0 r1 h0 h1 (fun r => ((1) * r ^ 3 / H ^ 1) / dd r H ^ 3)
    (fun r z => (evalL [0, (3) * r ^ 2] z / dd r z ^ 5)) ?_ ?_ ?_
  · intro r hr
    have h := (dr_frac [0, 0, 0, (1) / H ^ 1] 0 3 r H hr)
    ann_dr h r H hr hH
  · intro r z hr
    have h := dz_frac [0, (3) * r ^ 2] 5 r z hr
    ann_dz h r z hr
  · intro r hr
    ann_zero r hr

theorem ann_32 (H r0 r1 : ℝ) (hH : 0 < H) (h0 : 0 < r0) (h1 : r0 ≤ r1) :
    (-120) * annInt 3 2 H r0 r1 = (((3) / r1 ^ 1) + ((-2) * H ^ 2 + (-3) * r1 ^ 2) / dd r1 H ^ 3)
      - (((3) / r0 ^ 1) + ((-2) * H ^ 2 + (-3) * r0 ^ 2) / dd r0 H ^ 3) := by
  refine annInt_eq 3 2 (-120) H r0 r1 h0 h1 (fun r => ((3) / r ^ 1) + ((-2) * H ^ 2 + (-3) * r ^ 2) / dd r H ^ 3)
    (fun r z => ((-3) / r ^ 2) + (evalL [(3) * r ^ 3] z / dd r z ^ 5)) ?_ ?_ ?_
  · intro r hr
    have h := (dr_frac0 [(3)] 1 r hr).add
      (dr_frac [(-2) * H ^ 2, 0, (-3)] 0 3 r H hr)
    ann_dr h r H hr hH
  · intro r z hr
    have h := (dz_frac [(3) * r ^ 3] 5 r z hr).const_add ((-3) / r ^ 2)
    ann_dz h r z hr
  · intro r hr
    ann_zero r hr

theorem ann_33 (H r0 r1 : ℝ) (hH : 0 < H) (h0 : 0 < r0) (h1 : r0 ≤ r1) :
    (-720) * annInt 3 3 H r0 r1 = (((8) / r1 ^ 1 * H ^ 3 + (12) * r1 ^ 1 * H ^ 1 + (3) * r1 ^ 3 / H ^ 1) / dd r1 H ^ 3)
      - (((8) / r0 ^ 1 * H ^ 3 + (12) * r0 ^ 1 * H ^ 1 + (3) * r0 ^ 3 / H ^ 1) / dd r0 H ^ 3) := by
  refine annInt_eq 3 3 (-720) H r0 r1 h0 h1 (fun r => ((8) / r ^ 1 * H ^ 3 + (12) * r ^ 1 * H ^ 1 + (3) * r ^ 3 / H ^ 1) / dd r H ^ 3)
    (fun r z => (evalL [0, (-15) * r ^ 2, 0, (-20), 0, (-8) / r ^ 2] z / dd r z ^ 5)) ?_ ?_ ?_
  · intro r hr
    have h := (dr_frac [(8) * H ^ 3, 0, (12) * H ^ 1, 0, (3) / H ^ 1] 1 3 r H hr)
    ann_dr h r H hr hH
  · intro r z hr
    have h := dz_frac [0, (-15) * r ^ 2, 0, (-20), 0, (-8) / r ^ 2] 5 r z hr
    ann_dz h r z hr
  · intro r hr
    ann_zero r hr

theorem ann_40 (H r0 r1 : ℝ) (hH : 0 < H) (h0 : 0 < r0) (h1 : r0 ≤ r1) :
    (192) * annInt 4 0 H r0 r1 = (((-1) * r1 ^ 2 * H ^ 1) / dd r1 H ^ 5)
      - (((-1) * r0 ^ 2 * H ^ 1) / dd r0 H ^ 5) := by
  refine annInt_eq 4 0 (192) H r0 r1 h0 h1 (fun r => ((-1) * r ^ 2 * H ^ 1) / dd r H ^ 5)
    (fun r z => (evalL [0, (3) * r ^ 3, 0, (-2) * r ^ 1] z / dd r z ^ 7)) ?_ ?_ ?_
  · intro r hr
    have h := (dr_frac [0, 0, (-1) * H ^ 1] 0 5 r H hr)
    ann_dr h r H hr hH
  · intro r z hr
    have h := dz_frac [0, (3) * r ^ 3, 0, (-2) * r ^ 1] 7 r z hr
    ann_dz h r z hr
  · intro r hr
    ann_zero r hr

theorem ann_41 (H r0 r1 : ℝ) (hH : 0 < H) (h0 : 0 < r0) (h1 : r0 ≤ r1) :
    (-1440) * annInt 4 1 H r0 r1 = (((-3) / r1 ^ 2) + ((8) * r1 ^ 3 + (2) * r1 ^ 5 / H ^ 2) / dd r1 H ^ 5)
      - (((-3) / r0 ^ 2) + ((8) * r0 ^ 3 + (2) * r0 ^ 5 / H ^ 2) / dd r0 H ^ 5) := by
  refine annInt_eq 4 1 (-1440) H r0 r1 h0 h1 (fun r => ((-3) / r ^ 2) + ((8) * r ^ 3 + (2) * r ^ 5 / H ^ 2) / dd r H ^ 5)
    (fun r z => ((6) / r ^ 3) + (evalL [(-6) * r ^ 4, 0, (24) * r ^ 2] z / dd r z ^ 7)) ?_ ?_ ?_
  · intro r hr
    have h := (dr_frac0 [(-3)] 2 r hr).add
      (dr_frac [0, 0, 0, (8), 0, (2) / H ^ 2] 0 5 r H hr)
    ann_dr h r H hr hH
  · intro r z hr
    have h := (dz_frac [(-6) * r ^ 4, 0, (24) * r ^ 2] 7 r z hr).const_add ((6) / r ^ 3)
    ann_dz h r z hr
  · intro r hr
    ann_zero r hr

theorem ann_42 (H r0 r1 : ℝ) (hH : 0 < H) (h0 : 0 < r0) (h1 : r0 ≤ r1) :
    (1440) * annInt 4 2 H r0 r1 = (((2) * H ^ 3 + (5) * r1 ^ 2 * H ^ 1) / dd r1 H ^ 5)
      - (((2) * H ^ 3 + (5) * r0 ^ 2 * H ^ 1) / dd r0 H ^ 5) := by
  refine annInt_eq 4 2 (1440) H r0 r1 h0 h1 (fun r => ((2) * H ^ 3 + (5) * r ^ 2 * H ^ 1) / dd r H ^ 5)
    (fun r z => (evalL [0, (-15) * r ^ 3] z / dd r z ^ 7)) ?_ ?_ ?_
  · intro r hr
    have h := (dr_frac [(2) * H ^ 3, 0, (5) * H ^ 1] 0 5 r H hr)
    ann_dr h r H hr hH
  · intro r z hr
    have h := dz_frac [0, (-15) * r ^ 3] 7 r z hr
    ann_dz h r z hr
  · intro r hr
    ann_zero r hr

theorem ann_43 (H r0 r1 : ℝ) (hH : 0 < H) (h0 : 0 < r0) (h1 : r0 ≤ r1) :
    (-3360) * annInt 4 3 H r0 r1 = (((5) / r1 ^ 2) + ((2) * r1 ^ 5 / H ^ 2) / dd r1 H ^ 5)
      - (((5) / r0 ^ 2) + ((2) * r0 ^ 5 / H ^ 2) / dd r0 H ^ 5) := by
  refine annInt_eq 4 3 (-3360) H r0 r1 h0 h1 (fun r => ((5) / r ^ 2) + ((2) * r ^ 5 / H ^ 2) / dd r H ^ 5)
    (fun r z => ((-10) / r ^ 3) + (evalL [(10) * r ^ 4] z / dd r z ^ 7)) ?_ ?_ ?_
  · intro r hr
    have h := (dr_frac0 [(5)] 2 r hr).add
      (dr_frac [0, 0, 0, 0, 0, (2) / H ^ 2] 0 5 r H hr)
    ann_dr h r H hr hH
  · intro r z hr
    have h := (dz_frac [(10) * r ^ 4] 7 r z hr).const_add ((-10) / r ^ 3)
    ann_dz h r z hr
  · intro r hr
    ann_zero r hr

theorem ann_44 (H r0 r1 : ℝ) (hH : 0 < H) (h0 : 0 < r0) (h1 : r0 ≤ r1) :
    (40320) * annInt 4 4 H r0 r1 = (((-24) / r1 ^ 2 * H ^ 5 + (-56) * H ^ 3 + (-35) * r1 ^ 2 * H ^ 1) / dd r1 H ^ 5)
      - (((-24) / r0 ^ 2 * H ^ 5 + (-56) * H ^ 3 + (-35) * r0 ^ 2 * H ^ 1) / dd r0 H ^ 5) := by
  refine annInt_eq 4 4 (40320) H r0 r1 h0 h1 (fun r => ((-24) / r ^ 2 * H ^ 5 + (-56) * H ^ 3 + (-35) * r ^ 2 * H ^ 1) / dd r H ^ 5)
    (fun r z => (evalL [0, (105) * r ^ 3, 0, (210) * r ^ 1, 0, (168) / r ^ 1, 0, (48) / r ^ 3] z / dd r z ^ 7)) ?_ ?_ ?_
  · intro r hr
    have h := (dr_frac [(-24) * H ^ 5, 0, (-56) * H ^ 3, 0, (-35) * H ^ 1] 2 5 r H hr)
    ann_dr h r H hr hH
  · intro r z hr
    have h := dz_frac [0, (105) * r ^ 3, 0, (210) * r ^ 1, 0, (168) / r ^ 1, 0, (48) / r ^ 3] 7 r z hr
    ann_dz h r z hr
  · intro r hr
    ann_zero r hr

theorem ann_50 (H r0 r1 : ℝ) (hH : 0 < H) (h0 : 0 < r0) (h1 : r0 ≤ r1) :
    (4800) * annInt 5 0 H r0 r1 = (((-1) / r1 ^ 3) + ((-4) * r1 ^ 2 * H ^ 2 + (1) * r1 ^ 4) / dd r1 H ^ 7)
      - (((-1) / r0 ^ 3) + ((-4) * r0 ^ 2 * H ^ 2 + (1) * r0 ^ 4) / dd r0 H ^ 7) := by
  refine annInt_eq 5 0 (4800) H r0 r1 h0 h1 (fun r => ((-1) / r ^ 3) + ((-4) * r ^ 2 * H ^ 2 + (1) * r ^ 4) / dd r H ^ 7)
    (fun r z => ((3) / r ^ 4) + (evalL [(-3) * r ^ 5, 0, (24) * r ^ 3, 0, (-8) * r ^ 1] z / dd r z ^ 9)) ?_ ?_ ?_
  · intro r hr
    have h := (dr_frac0 [(-1)] 3 r hr).add
      (dr_frac [0, 0, (-4) * H ^ 2, 0, (1)] 0 7 r H hr)
    ann_dr h r H hr hH
  · intro r z hr
    have h := (dz_frac [(-3) * r ^ 5, 0, (24) * r ^ 3, 0, (-8) * r ^ 1] 9 r z hr).const_add ((3) / r ^ 4)
    ann_dz h r z hr
  · intro r hr
    ann_zero r hr

theorem ann_51 (H r0 r1 : ℝ) (hH : 0 < H) (h0 : 0 < r0) (h1 : r0 ≤ r1) :
    (-17280) * annInt 5 1 H r0 r1 = (((20) * r1 ^ 3 * H ^ 1 + (7) * r1 ^ 5 / H ^ 1 + (2) * r1 ^ 7 / H ^ 3) / dd r1 H ^ 7)
      - (((20) * r0 ^ 3 * H ^ 1 + (7) * r0 ^ 5 / H ^ 1 + (2) * r0 ^ 7 / H ^ 3) / dd r0 H ^ 7) := by
  refine annInt_eq 5 1 (-17280) H r0 r1 h0 h1 (fun r => ((20) * r ^ 3 * H ^ 1 + (7) * r ^ 5 / H ^ 1 + (2) * r ^ 7 / H ^ 3) / dd r H ^ 7)
    (fun r z => (evalL [0, (-45) * r ^ 4, 0, (60) * r ^ 2] z / dd r z ^ 9)) ?_ ?_ ?_
  · intro r hr
    have h := (dr_frac [0, 0, 0, (20) * H ^ 1, 0, (7) / H ^ 1, 0, (2) / H ^ 3] 0 7 r H hr)
    ann_dr h r H hr hH
  · intro r z hr
    have h := dz_frac [0, (-45) * r ^ 4, 0, (60) * r ^ 2] 9 r z hr
    ann_dz h r z hr
  · intro r hr
    ann_zero r hr

theorem ann_52 (H r0 r1 : ℝ) (hH : 0 < H) (h0 : 0 < r0) (h1 : r0 ≤ r1) :
    (30240) * annInt 5 2 H r0 r1 = (((5) / r1 ^ 3) + ((4) * H ^ 4 + (14) * r1 ^ 2 * H ^ 2 + (-5) * r1 ^ 4) / dd r1 H ^ 7)
      - (((5) / r0 ^ 3) + ((4) * H ^ 4 + (14) * r0 ^ 2 * H ^ 2 + (-5) * r0 ^ 4) / dd r0 H ^ 7) := by
  refine annInt_eq 5 2 (30240) H r0 r1 h0 h1 (fun r => ((5) / r ^ 3) + ((4) * H ^ 4 + (14) * r ^ 2 * H ^ 2 + (-5) * r ^ 4) / dd r H ^ 7)
    (fun r z => ((-15) / r ^ 4) + (evalL [(15) * r ^ 5, 0, (-90) * r ^ 3] z / dd r z ^ 9)) ?_ ?_ ?_
  · intro r hr
    have h := (dr_frac0 [(5)] 3 r hr).add
      (dr_frac [(4) * H ^ 4, 0, (14) * H ^ 2, 0, (-5)] 0 7 r H hr)
    ann_dr h r H hr hH
  · intro r z hr
    have h := (dz_frac [(15) * r ^ 5, 0, (-90) * r ^ 3] 9 r z hr).const_add ((-15) / r ^ 4)
    ann_dz h r z hr
  · intro r hr
    ann_zero r hr

theorem ann_53 (H r0 r1 : ℝ) (hH : 0 < H) (h0 : 0 < r0) (h1 : r0 ≤ r1) :
    (-26880) * annInt 5 3 H r0 r1 = (((7) * r1 ^ 5 / H ^ 1 + (2) * r1 ^ 7 / H ^ 3) / dd r1 H ^ 7)
      - (((7) * r0 ^ 5 / H ^ 1 + (2) * r0 ^ 7 / H ^ 3) / dd r0 H ^ 7) := by
  refine annInt_eq 5 3 (-26880) H r0 r1 h0 h1 (fun r => ((7) * r ^ 5 / H ^ 1 + (2) * r ^ 7 / H ^ 3) / dd r H ^ 7)
    (fun r z => (evalL [0, (35) * r ^ 4] z / dd r z ^ 9)) ?_ ?_ ?_
  · intro r hr
    have h := (dr_frac [0, 0, 0, 0, 0, (7) / H ^ 1, 0, (2) / H ^ 3] 0 7 r H hr)
    ann_dr h r H hr hH
  · intro r z hr
    have h := dz_frac [0, (35) * r ^ 4] 9 r z hr
    ann_dz h r z hr
  · intro r hr
    ann_zero r hr

theorem ann_54 (H r0 r1 : ℝ) (hH : 0 < H) (h0 : 0 < r0) (h1 : r0 ≤ r1) :
    (362880) * annInt 5 4 H r0 r1 = (((-35) / r1 ^ 3) + ((8) * H ^ 4 + (28) * r1 ^ 2 * H ^ 2 + (35) * r1 ^ 4) / dd r1 H ^ 7)
      - (((-35) / r0 ^ 3) + ((8) * H ^ 4 + (28) * r0 ^ 2 * H ^ 2 + (35) * r0 ^ 4) / dd r0 H ^ 7) := by
  refine annInt_eq 5 4 (362880) H r0 r1 h0 h1 (fun r => ((-35) / r ^ 3) + ((8) * H ^ 4 + (28) * r ^ 2 * H ^ 2 + (35) * r ^ 4) / dd r H ^ 7)
    (fun r z => ((105) / r ^ 4) + (evalL [(-105) * r ^ 5] z / dd r z ^ 9)) ?_ ?_ ?_
  · intro r hr
    have h := (dr_frac0 [(-35)] 3 r hr).add
      (dr_frac [(8) * H ^ 4, 0, (28) * H ^ 2, 0, (35)] 0 7 r H hr)
    ann_dr h r H hr hH
  · intro r z hr
    have h := (dz_frac [(-105) * r ^ 5] 9 r z hr).const_add ((105) / r ^ 4)
    ann_dz h r z hr
  · intro r hr
    ann_zero r hr

theorem ann_55 (H r0 r1 : ℝ) (hH : 0 < H) (h0 : 0 < r0) (h1 : r0 ≤ r1) :
    (-3628800) * annInt 5 5 H r0 r1 = (((128) / r1 ^ 3 * H ^ 7 + (448) / r1 ^ 1 * H ^ 5 + (560) * r1 ^ 1 * H ^ 3 + (280) * r1 ^ 3 * H ^ 1 + (35) * r1 ^ 5 / H ^ 1 + (10) * r1 ^ 7 / H ^ 3) / dd r1 H ^ 7)
      - (((128) / r0 ^ 3 * H ^ 7 + (448) / r0 ^ 1 * H ^ 5 + (560) * r0 ^ 1 * H ^ 3 + (280) * r0 ^ 3 * H ^ 1 + (35) * r0 ^ 5 / H ^ 1 + (10) * r0 ^ 7 / H ^ 3) / dd r0 H ^ 7) := by
  refine annInt_eq 5 5 (-3628800) H r0 r1 h0 h1 (fun r => ((128) / r ^ 3 * H ^ 7 + (448) / r ^ 1 * H ^ 5 + (560) * r ^ 1 * H ^ 3 + (280) * r ^ 3 * H ^ 1 + (35) * r ^ 5 / H ^ 1 + (10) * r ^ 7 / H ^ 3) / dd r H ^ 7)
    (fun r z => (evalL [0, (-945) * r ^ 4, 0, (-2520) * r ^ 2, 0, (-3024), 0, (-1728) / r ^ 2, 0, (-384) / r ^ 4] z / dd r z ^ 9)) ?_ ?_ ?_
  · intro r hr
    have h := (dr_frac [(128) * H ^ 7, 0, (448) * H ^ 5, 0, (560) * H ^ 3, 0, (280) * H ^ 1, 0, (35) / H ^ 1, 0, (10) / H ^ 3] 3 7 r H hr)
    ann_dr h r H hr hH
  · intro r z hr
    have h := dz_frac [0, (-945) * r ^ 4, 0, (-2520) * r ^ 2, 0, (-3024), 0, (-1728) / r ^ 2, 0, (-384) / r ^ 4] 9 r z hr
    ann_dz h r z hr
  · intro r hr
    ann_zero r hr

end Newt
