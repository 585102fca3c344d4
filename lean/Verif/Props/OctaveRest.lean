import Verif.Props.OctaveShapes
import Mathlib.Analysis.Real.Pi.Bounds

/-!
# C107: the remaining Octave routines
-/

namespace Newt

open Spec

theorem foldl_min_isLeast : ∀ (l : List ℝ) (a : ℝ), IsLeast {x | x ∈ a :: l} (l.foldl min a)
  | [], a => by simp [IsLeast, lowerBounds]
  | b :: l, a => by
    rw [List.foldl_cons]
    obtain ⟨h1, h2⟩ := foldl_min_isLeast l (min a b)
    constructor
    · rcases List.mem_cons.1 h1 with h | h
      · rw [h]
        rcases min_choice a b with e | e <;> rw [e] <;> simp
      · exact List.mem_cons_of_mem _ (List.mem_cons_of_mem _ h)
    · intro x hx
      have h3 := h2 (show min a b ∈ _ from List.mem_cons_self)
      rcases List.mem_cons.1 hx with rfl | h
      · exact h3.trans (min_le_left _ _)
      · rcases List.mem_cons.1 h with rfl | h
        · exact h3.trans (min_le_right _ _)
        · exact h2 (List.mem_cons_of_mem _ h)

theorem foldl_max_isGreatest : ∀ (l : List ℝ) (a : ℝ), IsGreatest {x | x ∈ a :: l} (l.foldl max a)
  | [], a => by simp [IsGreatest, upperBounds]
  | b :: l, a => by
    rw [List.foldl_cons]
    obtain ⟨h1, h2⟩ := foldl_max_isGreatest l (max a b)
    constructor
    · rcases List.mem_cons.1 h1 with h | h
      · rw [h]
        rcases max_choice a b with e | e <;> rw [e] <;> simp
      · exact List.mem_cons_of_mem _ (List.mem_cons_of_mem _ h)
    · intro x hx
      have h3 := h2 (show max a b ∈ _ from List.mem_cons_self)
      rcases List.mem_cons.1 hx with rfl | h
      · exact (le_max_left _ _).trans h3
      · rcases List.mem_cons.1 h with rfl | h
        · exact (le_max_right _ _).trans h3
        · exact h2 (List.mem_cons_of_mem _ h)

/-- The extent of a scan in one coordinate. -/
def ScanExtent (d : List V3) (i : Fin 3) (lo hi : ℝ) : Prop :=
  IsLeast {x | ∃ v ∈ d, x = v i} lo ∧ IsGreatest {x | ∃ v ∈ d, x = v i} hi

theorem extreme_extent (d : List V3) (hd : d ≠ []) (i : Fin 3) : ScanExtent d i (Oct.extreme min i d) (Oct.extreme max i d) := by
  obtain ⟨v, l, rfl⟩ : ∃ v l, d = v :: l := by cases d with | nil => exact absurd rfl hd | cons v l => exact ⟨v, l, rfl⟩
  have e : {x | ∃ w ∈ v :: l, x = w i} = {x | x ∈ v i :: l.map fun w => w i} := by
    ext x
    simp only [Set.mem_setOf_eq, List.mem_cons, List.mem_map]
    constructor
    · rintro ⟨w, rfl | h, rfl⟩
      · exact Or.inl rfl
      · exact Or.inr ⟨w, h, rfl⟩
    · rintro (rfl | ⟨w, h, rfl⟩)
      · exact ⟨v, Or.inl rfl, rfl⟩
      · exact ⟨w, Or.inr h, rfl⟩
  rw [ScanExtent, e]
  exact ⟨foldl_min_isLeast _ _, foldl_max_isGreatest _ _⟩

theorem extent_unique (d : List V3) (hd : d ≠ []) (i : Fin 3) {lo hi : ℝ} (h : ScanExtent d i lo hi) :
    Oct.extreme min i d = lo ∧ Oct.extreme max i d = hi :=
  ⟨(extreme_extent d hd i).1.unique h.1, (extreme_extent d hd i).2.unique h.2⟩

theorem extent_le {d : List V3} {i : Fin 3} {lo hi : ℝ} (h : ScanExtent d i lo hi) : lo ≤ hi := h.2.2 h.1.1

theorem rangeCount_lt (a s b : ℝ) (hs : 0 < s) (hab : a ≤ b) (k : ℕ) : k < Oct.rangeCount a s b ↔ a + k * s ≤ b := by
  rw [Oct.rangeCount, if_neg (not_lt.2 hab), Nat.lt_succ_iff, Nat.le_floor_iff (div_nonneg (by linarith) hs.le), le_div_iff₀ hs]
  constructor <;> intro h <;> linarith

theorem rangeCount_last (a s b : ℝ) (hs : 0 < s) (hab : a ≤ b) :
    ((Oct.rangeCount a s b : ℝ) - 1) = ⌊(b - a) / s⌋ := by
  rw [Oct.rangeCount, if_neg (not_lt.2 hab)]
  have : ((⌊(b - a) / s⌋₊ : ℤ) : ℝ) = (⌊(b - a) / s⌋ : ℝ) := by rw [Int.natCast_floor_eq_floor (div_nonneg (by linarith) hs.le)]
  push_cast at this ⊢
  rw [← this]; ring

/-- C107: the points of `scanToPMArray`: over each node of the grid that starts at the lowest x and y of the scan and does not reach
beyond the highest, one point for each cell of height `zspacing` that fits under the interpolated surface.  The positions are
relative to the middle of the grid. -/
theorem C107_scan (griddata : List V3 → ℝ → ℝ → Option ℝ) (d : List V3) (hd : d ≠ []) (xs ys zs rho xlo xhi ylo yhi : ℝ)
    (hx : 0 < xs) (hy : 0 < ys) (hz : 0 < zs) (hr : 0 < rho) (ex : ScanExtent d 0 xlo xhi) (ey : ScanExtent d 1 ylo yhi) (p : Pt) :
    p ∈ Oct.scanToPMArray griddata d xs ys zs rho ↔
      ∃ (c r k : ℕ) (a : ℝ), xlo + c * xs ≤ xhi ∧ ylo + r * ys ≤ yhi ∧ griddata d (xlo + c * xs) (ylo + r * ys) = some a ∧
        ((k : ℝ) + 1) * zs ≤ a ∧ p.mass = xs * ys * zs * rho ∧
        p.pos = ![xlo + c * xs - (xlo + ⌊(xhi - xlo) / xs⌋ * xs / 2), ylo + r * ys - (ylo + ⌊(yhi - ylo) / ys⌋ * ys / 2),
          (k + 1 / 2) * zs] := by
  have hm : 0 < xs * ys * zs * rho := by positivity
  rw [Oct.scanToPMArray, (extent_unique d hd 0 ex).1, (extent_unique d hd 0 ex).2, (extent_unique d hd 1 ey).1, (extent_unique d hd 1 ey).2]
  rw [C94_heightmap _ _ _ _ _ _ _ hz hm, rangeCount_last _ _ _ hx (extent_le ex), rangeCount_last _ _ _ hy (extent_le ey)]
  simp only [rangeCount_lt _ _ _ hx (extent_le ex), rangeCount_lt _ _ _ hy (extent_le ey)]
  constructor
  · rintro ⟨c, r, k, a, h1, h2, h3, h4, h5, h6⟩
    refine ⟨c, r, k, a, h1, h2, h3, h4, h5, h6.trans ?_⟩
    congr 1
    · ring
    · congr 1; ring
  · rintro ⟨c, r, k, a, h1, h2, h3, h4, h5, h6⟩
    refine ⟨c, r, k, a, h1, h2, h3, h4, h5, h6.trans ?_⟩
    congr 1
    · ring
    · congr 1; ring

/-- C107: hence the location of the scanned surface is lost: a scan moved sideways gives the same array, for every interpolation
that moves along. -/
theorem C107_scan_shift (griddata : List V3 → ℝ → ℝ → Option ℝ) (d : List V3) (hd : d ≠ []) (xs ys zs rho u v : ℝ)
    (hg : ∀ x y, griddata (d.map fun w => ![w 0 + u, w 1 + v, w 2]) (x + u) (y + v) = griddata d x y) :
    Oct.scanToPMArray griddata (d.map fun w => ![w 0 + u, w 1 + v, w 2]) xs ys zs rho = Oct.scanToPMArray griddata d xs ys zs rho := by
  have hd' : d.map (fun w : V3 => (![w 0 + u, w 1 + v, w 2] : V3)) ≠ [] := by simpa using hd
  have hext : ∀ (i : Fin 3) (t : ℝ), (∀ w : V3, (![w 0 + u, w 1 + v, w 2] : V3) i = w i + t) → ∀ lo hi, ScanExtent d i lo hi →
      ScanExtent (d.map fun w : V3 => (![w 0 + u, w 1 + v, w 2] : V3)) i (lo + t) (hi + t) := by
    intro i t hi lo hi' h
    obtain ⟨⟨⟨a, ha, ha'⟩, h2⟩, ⟨b, hb, hb'⟩, h4⟩ := h
    refine ⟨⟨⟨_, List.mem_map.2 ⟨a, ha, rfl⟩, by rw [hi, ha']⟩, ?_⟩, ⟨_, List.mem_map.2 ⟨b, hb, rfl⟩, by rw [hi, hb']⟩, ?_⟩
    · rintro x ⟨w, hw, rfl⟩
      obtain ⟨w', hw', rfl⟩ := List.mem_map.1 hw
      rw [hi]
      have := h2 ⟨w', hw', rfl⟩
      linarith
    · rintro x ⟨w, hw, rfl⟩
      obtain ⟨w', hw', rfl⟩ := List.mem_map.1 hw
      rw [hi]
      have := h4 ⟨w', hw', rfl⟩
      linarith
  obtain ⟨x1, x2⟩ := extent_unique _ hd' 0 (hext 0 u (fun w => rfl) _ _ (extreme_extent d hd 0))
  obtain ⟨y1, y2⟩ := extent_unique _ hd' 1 (hext 1 v (fun w => rfl) _ _ (extreme_extent d hd 1))
  have hrc : ∀ a s b t : ℝ, Oct.rangeCount (a + t) s (b + t) = Oct.rangeCount a s b := by
    intro a s b t
    rw [Oct.rangeCount, Oct.rangeCount, show b + t - (a + t) = b - a by ring]
    simp only [add_lt_add_iff_right]
  rw [Oct.scanToPMArray, Oct.scanToPMArray, x1, x2, y1, y2]
  simp only [hrc]
  congr 1
  funext r c
  rw [show Oct.extreme min 0 d + u + c * xs = Oct.extreme min 0 d + c * xs + u by ring,
    show Oct.extreme min 1 d + v + r * ys = Oct.extreme min 1 d + r * ys + v by ring, hg]

/-- C107: `scatterPMMassesYZGrid` (documented to scatter y and z) keeps masses and heights and moves the points in x and y. -/
theorem C107_scatter (g : ℝ) (M : PtArray) (R : ℕ → ℝ × ℝ) :
    (Oct.scatterPMMassesYZGrid g M R).length = M.length ∧
    ∀ (i : ℕ) (p : Pt), M[i]? = some p →
      (Oct.scatterPMMassesYZGrid g M R)[i]? = some ⟨p.mass, p.pos + g • ![(R i).1, (R i).2, 0]⟩ := by
  refine ⟨by simp [Oct.scatterPMMassesYZGrid], fun i p h => ?_⟩
  rw [Oct.scatterPMMassesYZGrid, List.getElem?_mapIdx, h, Option.map_some, Option.some.injEq]
  congr 1
  funext j
  fin_cases j <;> simp

/-- C107: so it leaves all x alone, as documented, only if all draws used for x are zero. -/
theorem C107_scatter_not_yz (g : ℝ) (hg : g ≠ 0) (M : PtArray) (R : ℕ → ℝ × ℝ) :
    ((Oct.scatterPMMassesYZGrid g M R).map fun p => p.pos 0) = M.map (fun p => p.pos 0) ↔ ∀ i < M.length, (R i).1 = 0 := by
  constructor
  · intro h i hi
    have h1 := congrArg (fun l : List ℝ => l[i]?) h
    simp only [List.getElem?_map] at h1
    rw [(C107_scatter g M R).2 i M[i] (List.getElem?_eq_getElem hi), List.getElem?_eq_getElem hi] at h1
    simp only [Option.map_some, Option.some.injEq, Pi.add_apply, Pi.smul_apply, Matrix.cons_val_zero, smul_eq_mul] at h1
    have : g * (R i).1 = 0 := by linarith
    exact (mul_eq_zero.1 this).resolve_left hg
  · intro h
    apply List.ext_getElem?
    intro i
    rw [List.getElem?_map, List.getElem?_map]
    by_cases hi : i < M.length
    · rw [(C107_scatter g M R).2 i M[i] (List.getElem?_eq_getElem hi), List.getElem?_eq_getElem hi]
      simp only [Option.map_some, Option.some.injEq, Pi.add_apply, Pi.smul_apply, Matrix.cons_val_zero, smul_eq_mul, h i hi, mul_zero, add_zero]
    · rw [List.getElem?_eq_none (by rw [(C107_scatter g M R).1]; omega), List.getElem?_eq_none (by omega)]

/-- C107: `genPointMassRoundXSheet` never returns an array. -/
theorem C107_round_sheet (mass nrings ngon : ℝ) : Oct.genPointMassRoundXSheet mass nrings ngon = .error := rfl

/-! ## The demonstration script -/

/-- The two masses of the demonstration, turned clockwise by `t` (seen from above) and moved by 30 cm. -/
noncomputable def demoAttractor (t : ℝ) : PtArray :=
  [⟨0.1, ![0.05 * Real.cos t - 0.3, -(0.05 * Real.sin t), 0.05]⟩, ⟨0.1, ![-(0.05 * Real.cos t) - 0.3, 0.05 * Real.sin t, -0.05]⟩]

theorem demo_rotated (t : ℝ) : ∃ A, Oct.rotatePMArray Oct.demoPendulum t ![0, 0, 1] = some A ∧
    Oct.translatePMArray A ![-30e-2, 0, 0] = demoAttractor t := by
  have hs : Real.sqrt (0 * 0 + 0 * 0 + 1 * 1) = 1 := by norm_num
  refine ⟨Oct.demoPendulum.map fun p => ⟨p.mass, (Oct.R t 0 0 1).mulVec p.pos⟩, ?_, ?_⟩
  · rw [Oct.rotatePMArray]
    simp only [Matrix.cons_val, hs, div_one]
    rw [if_neg (by simp [Oct.demoPendulum]), if_neg (by norm_num)]
  · simp only [Oct.demoPendulum, demoAttractor, Oct.translatePMArray, List.map_cons, List.map_nil, List.cons.injEq, Pt.mk.injEq, true_and,
      and_true]
    constructor <;>
    · funext i
      fin_cases i <;> simp [Oct.R, Matrix.mulVec, dotProduct, Fin.sum_univ_three] <;> ring

/-- C107: one pass of the loop: Newton's force and torque on the pendulum due to the attractor, turned clockwise by the angle. -/
theorem C107_demo_row (t : ℝ) : Oct.demoRow t =
    some (t, newtonForce Oct.demoPendulum (demoAttractor t), newtonTorque Oct.demoPendulum (demoAttractor t)) := by
  obtain ⟨A, h1, h2⟩ := demo_rotated t
  have hap : Apart Oct.demoPendulum (demoAttractor t) := by
    intro a ha b hb e
    have hx := congrFun e 0
    have hc := Real.abs_cos_le_one t
    have hc' := abs_le.1 hc
    simp only [Oct.demoPendulum, demoAttractor, List.mem_cons, List.not_mem_nil, or_false] at ha hb
    rcases ha with rfl | rfl <;> rcases hb with rfl | rfl <;> simp only [Matrix.cons_val] at hx <;> norm_num at hx <;> linarith
  rw [Oct.demoRow, h1, Option.bind_some, h2, (C91_gravity_newton _ _).1 hap]
  rfl

/-- C107: the script computes 63 rows, for the angles 0, 0.1, ..., 6.2. -/
theorem C107_demo : Oct.sampleDemo = (List.range 63).map fun k : ℕ =>
    some (0.1 * (k : ℝ), newtonForce Oct.demoPendulum (demoAttractor (0.1 * k)), newtonTorque Oct.demoPendulum (demoAttractor (0.1 * k))) := by
  have hn : Oct.rangeCount 0 0.1 (2 * Real.pi) = 63 := by
    have h1 := Real.pi_gt_d2
    have h2 := Real.pi_lt_d2
    rw [Oct.rangeCount, if_neg (by linarith)]
    have : ⌊(2 * Real.pi - 0) / 0.1⌋₊ = 62 := by
      rw [Nat.floor_eq_iff (div_nonneg (by linarith) (by norm_num))]
      constructor
      · rw [le_div_iff₀ (by norm_num)]; norm_num; linarith
      · rw [div_lt_iff₀ (by norm_num)]; norm_num; linarith
    omega
  rw [Oct.sampleDemo, hn]
  simp only [C107_demo_row]

/-- A scan of three points over a 1 by 1 square with a constant surface of height 2: the grid of spacing 1 has four nodes, and the
first point of the array is over the lower left node, at `[-1/2, -1/2, 1/2]` relative to the middle. -/
example : (⟨1, ![-1 / 2, -1 / 2, 1 / 2]⟩ : Pt) ∈
    Oct.scanToPMArray (fun _ _ _ => some 2) [![5, 7, 2], ![6, 7, 2], ![5, 8, 2]] 1 1 1 1 := by
  have ex : ScanExtent [![5, 7, 2], ![6, 7, 2], ![5, 8, 2]] 0 5 6 := by
    refine ⟨⟨⟨_, List.mem_cons_self, rfl⟩, ?_⟩, ⟨⟨![6, 7, 2], by simp, rfl⟩, ?_⟩⟩ <;>
    · rintro x ⟨v, hv, rfl⟩
      simp only [List.mem_cons, List.not_mem_nil, or_false] at hv
      rcases hv with rfl | rfl | rfl <;> simp <;> norm_num
  have ey : ScanExtent [![5, 7, 2], ![6, 7, 2], ![5, 8, 2]] 1 7 8 := by
    refine ⟨⟨⟨_, List.mem_cons_self, rfl⟩, ?_⟩, ⟨⟨![5, 8, 2], by simp, rfl⟩, ?_⟩⟩ <;>
    · rintro x ⟨v, hv, rfl⟩
      simp only [List.mem_cons, List.not_mem_nil, or_false] at hv
      rcases hv with rfl | rfl | rfl <;> simp <;> norm_num
  rw [C107_scan _ _ (by simp) 1 1 1 1 5 6 7 8 (by norm_num) (by norm_num) (by norm_num) (by norm_num) ex ey]
  refine ⟨0, 0, 0, 2, by norm_num, by norm_num, rfl, by norm_num, by norm_num, ?_⟩
  have f1 : ⌊((6 : ℝ) - 5) / 1⌋ = 1 := by norm_num
  have f2 : ⌊((8 : ℝ) - 7) / 1⌋ = 1 := by norm_num
  rw [f1, f2]
  funext i
  fin_cases i <;> simp <;> norm_num

end Newt
