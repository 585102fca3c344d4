import Verif.Props.GlibShapes

/-!
# C44: where the point-mass solids are centred

`firstMoment A i` is the total mass times the `i`-th coordinate of the centre of mass.
-/

namespace Newt

open Spec Shp Finset

/-- `sum_{l<n} (l - (n-1)/2) h = 0`. -/
theorem sum_node (n : ℕ) (h : ℝ) : ∑ i ∈ range n, node i n h 0 = 0 := by
  have e := sum_axis n h id
  simp only [id, sum_neg_distrib] at e
  linarith

/-- The first moment of the point-mass rectangle: `x` and `z` are centred, `y` is displaced by
`(ny - nx)/2` grid steps. -/
theorem C44_rectangle_first_moment (mass x y z : ℝ) (nx ny nz : ℕ) (A : PtArray)
    (h : Shp.rectangle mass x y z nx ny nz = .ok A) :
    firstMoment A 0 = 0 ∧ firstMoment A 1 = mass * (((ny : ℝ) - nx) / 2 * (y / ny)) ∧ firstMoment A 2 = 0 := by
  rw [Shp.rectangle] at h
  split_ifs at h with h1
  injection h with h
  subst h
  have hne : ((nx * ny * nz : ℕ) : ℝ) ≠ 0 := by exact_mod_cast h1
  simp only [firstMoment, List.map_map, Function.comp_def]
  simp only [List.sum_map_mul_left]
  refine ⟨?_, ?_, ?_⟩
  · rw [sum_grid]
    simp only [Matrix.cons_val_zero, sum_node, sum_const_zero, mul_zero]
  · rw [sum_grid]
    simp only [Matrix.cons_val_one, Matrix.cons_val_zero, sum_const, card_range, nsmul_eq_mul, ← mul_sum]
    have e : ∑ l ∈ range ny, ((l : ℝ) - ((nx : ℝ) - 1) / 2) * (y / ny)
        = ny * (((ny : ℝ) - nx) / 2 * (y / ny)) := by
      have := sum_node ny (y / ny)
      have e2 : ∀ l : ℕ, ((l : ℝ) - ((nx : ℝ) - 1) / 2) * (y / ny)
          = node l ny (y / ny) 0 + ((ny : ℝ) - nx) / 2 * (y / ny) := fun l => by rw [node]; ring
      simp only [e2, sum_add_distrib, this, sum_const, card_range, nsmul_eq_mul, zero_add]
    rw [e]
    push_cast at hne ⊢
    generalize ((ny : ℝ) - nx) / 2 * (y / ny) = w at *
    rw [div_mul_eq_mul_div, div_eq_iff hne]
    ring
  · rw [sum_grid]
    simp only [Matrix.cons_val, sum_const, card_range, nsmul_eq_mul, ← mul_sum, sum_node, mul_zero]

/-- The rectangle is centred exactly when the `x` and `y` grids have the same number of points. -/
theorem C44_rectangle_centred_iff (mass x y z : ℝ) (nx ny nz : ℕ) (hm : mass ≠ 0) (hy : y ≠ 0) (A : PtArray)
    (h : Shp.rectangle mass x y z nx ny nz = .ok A) : (∀ i, firstMoment A i = 0) ↔ nx = ny := by
  obtain ⟨h0, h1, h2⟩ := C44_rectangle_first_moment mass x y z nx ny nz A h
  have hny : (ny : ℝ) ≠ 0 := by
    rw [Shp.rectangle] at h
    split_ifs at h with h1
    exact_mod_cast fun h' => h1 (by rw [h']; simp)
  constructor
  · intro hi
    have := hi 1
    rw [h1] at this
    have h3 : ((ny : ℝ) - nx) / 2 = 0 := by
      rcases mul_eq_zero.1 this with h | h
      · exact absurd h hm
      · rcases mul_eq_zero.1 h with h | h
        · exact h
        · exact absurd h (div_ne_zero hy hny)
    have : (ny : ℝ) = nx := by linarith
    exact_mod_cast this.symm
  · rintro rfl i
    fin_cases i
    · exact h0
    · simp [h1]
    · exact h2

example : ∃ A, Shp.rectangle 2 1 1 1 1 3 1 = .ok A ∧ A ≠ [] := by
  rw [Shp.rectangle, if_neg (by norm_num)]
  exact ⟨_, rfl, by simp [grid, List.range_succ]⟩

/-! ## The other generators -/

theorem abs_arctan2_neg (y x : ℝ) : |arctan2 (-y) x| = |arctan2 y x| := by
  have h : (⟨x, -y⟩ : ℂ) = (starRingEnd ℂ) ⟨x, y⟩ := by apply Complex.ext <;> simp
  change |Complex.arg ⟨x, -y⟩| = |Complex.arg ⟨x, y⟩|
  rw [h, Complex.arg_conj]
  split_ifs with h1
  · rw [h1]
  · rw [abs_neg]

theorem first_x {mass pm hx hy cy hz cz : ℝ} {nx ny nz : ℕ} {p : V3 → Bool} {A : PtArray}
    (h : rescale mass pm ((box nx ny nz hx 0 hy cy hz cz).filter p) = .ok A)
    (hp : ∀ x y z, p ![-x, y, z] = true ↔ p ![x, y, z] = true) : firstMoment A 0 = 0 := by
  refine rescale_first h 0 ?_
  have := sum_x nx ny nz hx hy cy hz cz (fun v => p v = true) (fun v => v 0)
    hp (fun x y z => by simp)
  simpa using this

theorem first_y {mass pm hx cx hy hz cz : ℝ} {nx ny nz : ℕ} {p : V3 → Bool} {A : PtArray}
    (h : rescale mass pm ((box nx ny nz hx cx hy 0 hz cz).filter p) = .ok A)
    (hp : ∀ x y z, p ![x, -y, z] = true ↔ p ![x, y, z] = true) : firstMoment A 1 = 0 := by
  refine rescale_first h 1 ?_
  have := sum_y nx ny nz hx cx hy hz cz (fun v => p v = true) (fun v => v 1)
    hp (fun x y z => by simp)
  simpa using this

theorem first_z {mass pm hx cx hy cy hz : ℝ} {nx ny nz : ℕ} {p : V3 → Bool} {A : PtArray}
    (h : rescale mass pm ((box nx ny nz hx cx hy cy hz 0).filter p) = .ok A)
    (hp : ∀ x y z, p ![x, y, -z] = true ↔ p ![x, y, z] = true) : firstMoment A 2 = 0 := by
  refine rescale_first h 2 ?_
  have := sum_z nx ny nz hx cx hy cy hz (fun v => p v = true) (fun v => v 2)
    hp (fun x y z => by simp)
  simpa using this

theorem first_pt {mass pm hx hy hz : ℝ} {nx ny nz : ℕ} {p : V3 → Bool} {A : PtArray}
    (h : rescale mass pm ((box nx ny nz hx 0 hy 0 hz 0).filter p) = .ok A)
    (hp : ∀ x y z, p ![-x, -y, -z] = true ↔ p ![x, y, z] = true) (i : Fin 3) : firstMoment A i = 0 := by
  refine rescale_first h i ?_
  have := sum_pt nx ny nz hx hy hz (fun v => p v = true) (fun v => v i)
    hp (fun x y z => by fin_cases i <;> simp)
  simpa using this

/-- The sphere is centred on the origin. -/
theorem C44_sphere (mass R : ℝ) (N : ℕ) (A : PtArray) (h : Shp.sphere mass R N = .ok A) (i : Fin 3) :
    firstMoment A i = 0 := by
  rw [Shp.sphere] at h; split_ifs at h
  exact first_pt h (fun x y z => by beta_reduce; rw [decide_eq_true_iff, decide_eq_true_iff]; simp) i

/-- The annulus is centred on the origin. -/
theorem C44_annulus (mass r1 r2 t : ℝ) (nx nz : ℕ) (A : PtArray)
    (h : Shp.annulus mass r1 r2 t nx nz = .ok A) (i : Fin 3) : firstMoment A i = 0 := by
  rw [Shp.annulus] at h; split_ifs at h
  rw [rescale1] at h; split_ifs at h
  exact first_pt h (fun x y z => by beta_reduce; rw [decide_eq_true_iff, decide_eq_true_iff]; simp) i

/-- The drilled-out part of a cylinder is centred on the origin. -/
theorem C44_cylhole (mass r R : ℝ) (nx nz : ℕ) (A : PtArray)
    (h : cylhole mass r R nx nz = .ok A) (i : Fin 3) : firstMoment A i = 0 := by
  rw [cylhole] at h; split_ifs at h
  exact first_pt h (fun x y z => by beta_reduce; rw [decide_eq_true_iff, decide_eq_true_iff]; simp) i

/-- The drilled-out part of a plate is centred on the origin. -/
theorem C44_platehole (mass t r theta : ℝ) (nx ny nz : ℕ) (A : PtArray)
    (h : platehole mass t r theta nx ny nz = .ok A) (i : Fin 3) : firstMoment A i = 0 := by
  rw [platehole] at h; split_ifs at h
  refine first_pt h (fun x y z => ?_) i
  beta_reduce
  rw [decide_eq_true_iff, decide_eq_true_iff]
  simp only [Matrix.cons_val]
  rw [show (-y) ^ 2 + (-x - -z * Real.tan theta) ^ 2 = y ^ 2 + (x - z * Real.tan theta) ^ 2 by ring]

/-- The wedge is centred in `y` and `z`. -/
theorem C44_wedge (mass r1 r2 t beta : ℝ) (nx nz : ℕ) (A : PtArray)
    (h : Shp.wedge mass r1 r2 t beta nx nz = .ok A) : firstMoment A 1 = 0 ∧ firstMoment A 2 = 0 := by
  rw [Shp.wedge] at h; extract_lets at h; split_ifs at h <;>
  exact ⟨first_y h (fun x y z => by beta_reduce; rw [decide_eq_true_iff, decide_eq_true_iff]; simp [abs_arctan2_neg]),
    first_z h (fun x y z => by beta_reduce; rw [decide_eq_true_iff, decide_eq_true_iff]; simp)⟩

/-- The cone is centred in `y`. -/
theorem C44_cone (mass R H beta : ℝ) (nx nz : ℕ) (A : PtArray)
    (h : Shp.cone mass R H beta nx nz = .ok A) : firstMoment A 1 = 0 := by
  rw [Shp.cone] at h; extract_lets at h; split_ifs at h <;>
  exact first_y h (fun x y z => by beta_reduce; rw [decide_eq_true_iff, decide_eq_true_iff]; simp [abs_arctan2_neg])

/-- The annular cone is centred in `y`. -/
theorem C44_outer_cone (mass r1 r2 H beta : ℝ) (nx nz : ℕ) (A : PtArray)
    (h : outerCone mass r1 r2 H beta nx nz = .ok A) : firstMoment A 1 = 0 := by
  rw [outerCone] at h; extract_lets at h; split_ifs at h <;>
  exact first_y h (fun x y z => by beta_reduce; rw [decide_eq_true_iff, decide_eq_true_iff]; simp [abs_arctan2_neg])

/-- The trapezoid is centred in `y` and `z`. -/
theorem C44_trapezoid (mass r1 r2 t beta : ℝ) (nx nz : ℕ) (A : PtArray)
    (h : Shp.trapezoid mass r1 r2 t beta nx nz = .ok A) : firstMoment A 1 = 0 ∧ firstMoment A 2 = 0 := by
  rw [Shp.trapezoid] at h; extract_lets at h
  split_ifs at h
  · injection h with h
    subst h
    simp [firstMoment]
  · exact ⟨first_y h (fun x y z => by beta_reduce; rw [decide_eq_true_iff, decide_eq_true_iff]; simp [abs_arctan2_neg]),
      first_z h (fun x y z => by beta_reduce; rw [decide_eq_true_iff, decide_eq_true_iff]; simp)⟩

/-- The triangular prism is centred in `z`. -/
theorem C44_tri_prism (mass d y1 y2 t : ℝ) (nx ny nz : ℕ) (A : PtArray)
    (h : Shp.triPrism mass d y1 y2 t nx ny nz = .ok A) : firstMoment A 2 = 0 := by
  rw [Shp.triPrism] at h
  split_ifs at h
  rw [rescale1] at h; split_ifs at h
  exact first_z h (fun x y z => by beta_reduce; rw [decide_eq_true_iff, decide_eq_true_iff]; simp)

/-- The prism over a regular polygon is centred in `z`. -/
theorem C44_ngon_prism (mass H a : ℝ) (N nx nz : ℕ) (A : PtArray)
    (h : Shp.ngonPrism mass H a N nx nz = .ok A) : firstMoment A 2 = 0 := by
  rw [Shp.ngonPrism] at h; split_ifs at h
  exact first_z h (fun x y z => Iff.rfl)

/-- The pyramid is centred in `x` and `y`. -/
theorem C44_pyramid (mass x y z : ℝ) (nx ny nz : ℕ) (A : PtArray)
    (h : Shp.pyramid mass x y z nx ny nz = .ok A) : firstMoment A 0 = 0 ∧ firstMoment A 1 = 0 := by
  rw [Shp.pyramid] at h; split_ifs at h
  refine ⟨first_x h ?_, first_y h ?_⟩
  · intro a b c
    beta_reduce
    rw [decide_eq_true_iff, decide_eq_true_iff]
    simp only [Matrix.cons_val]
    have e1 : -a * y / 2 = -(a * y / 2) := by ring
    have e2 : 2 * -a / x = -(2 * a / x) := by ring
    rw [e1, e2]
    generalize a * y / 2 = p; generalize b * x / 2 = q; generalize 2 * a / x = r; generalize 2 * b / y = s
    rw [sub_neg_eq_add, ← sub_eq_add_neg]
    constructor
    · rintro (⟨h1, h2, h3⟩ | ⟨h1, h2, h3⟩ | ⟨h1, h2, h3⟩ | ⟨h1, h2, h3⟩)
      · exact Or.inl ⟨by linarith, by linarith, h3⟩
      · exact Or.inr (Or.inl ⟨by linarith, by linarith, h3⟩)
      · exact Or.inr (Or.inr (Or.inr ⟨by linarith, by linarith, h3⟩))
      · exact Or.inr (Or.inr (Or.inl ⟨by linarith, by linarith, h3⟩))
    · rintro (⟨h1, h2, h3⟩ | ⟨h1, h2, h3⟩ | ⟨h1, h2, h3⟩ | ⟨h1, h2, h3⟩)
      · exact Or.inl ⟨by linarith, by linarith, h3⟩
      · exact Or.inr (Or.inl ⟨by linarith, by linarith, h3⟩)
      · exact Or.inr (Or.inr (Or.inr ⟨by linarith, by linarith, h3⟩))
      · exact Or.inr (Or.inr (Or.inl ⟨by linarith, by linarith, h3⟩))
  · intro a b c
    beta_reduce
    rw [decide_eq_true_iff, decide_eq_true_iff]
    simp only [Matrix.cons_val]
    have e1 : -b * x / 2 = -(b * x / 2) := by ring
    have e2 : 2 * -b / y = -(2 * b / y) := by ring
    rw [e1, e2]
    generalize a * y / 2 = p; generalize b * x / 2 = q; generalize 2 * a / x = r; generalize 2 * b / y = s
    rw [sub_neg_eq_add, ← sub_eq_add_neg]
    constructor
    · rintro (⟨h1, h2, h3⟩ | ⟨h1, h2, h3⟩ | ⟨h1, h2, h3⟩ | ⟨h1, h2, h3⟩)
      · exact Or.inr (Or.inl ⟨by linarith, by linarith, h3⟩)
      · exact Or.inl ⟨by linarith, by linarith, h3⟩
      · exact Or.inr (Or.inr (Or.inl ⟨by linarith, by linarith, h3⟩))
      · exact Or.inr (Or.inr (Or.inr ⟨by linarith, by linarith, h3⟩))
    · rintro (⟨h1, h2, h3⟩ | ⟨h1, h2, h3⟩ | ⟨h1, h2, h3⟩ | ⟨h1, h2, h3⟩)
      · exact Or.inr (Or.inl ⟨by linarith, by linarith, h3⟩)
      · exact Or.inl ⟨by linarith, by linarith, h3⟩
      · exact Or.inr (Or.inr (Or.inl ⟨by linarith, by linarith, h3⟩))
      · exact Or.inr (Or.inr (Or.inr ⟨by linarith, by linarith, h3⟩))

/-- Instance: the generators succeed and return points. -/
example : ∃ A, Shp.annulus 2 0 1 1 1 1 = .ok A ∧ A ≠ [] := by
  have hpi := Real.pi_pos.ne'
  refine ⟨[⟨2, ![0, 0, 0]⟩], ?_, by simp⟩
  simp [Shp.annulus, rescale1, rescale, box, grid, node, hpi]
  field_simp

end Newt
