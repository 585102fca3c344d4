import Verif.Props.GlibConverge

/-!
# C84, continued: the generators whose point array converges to something other than the documented solid
-/

namespace Newt

open MeasureTheory Filter Topology Spec Shp

theorem brick_eq (a b c : ℝ) : brick a b c = {v : V3 | |v 0| ≤ a / 2} ∩ ({v : V3 | |v 1| ≤ b / 2} ∩ {v : V3 | |v 2| ≤ c / 2}) := rfl

theorem brick_nf (a b c : ℝ) : volume (frontier (brick a b c)) = 0 := by
  rw [brick_eq]; exact nf_inter (nf_abs 0 _) (nf_inter (nf_abs 1 _) (nf_abs 2 _))

theorem brick_vol {a b c : ℝ} (ha : 0 < a) (hb : 0 < b) (hc : 0 < c) : volume (brick a b c) ≠ 0 := by
  refine vol_ne_of_open (U := {v : V3 | |v 0| < a / 2} ∩ ({v : V3 | |v 1| < b / 2} ∩ {v : V3 | |v 2| < c / 2})) ?_ ?_ ?_
  · exact (isOpen_lt (by fun_prop) (by fun_prop)).inter ((isOpen_lt (by fun_prop) (by fun_prop)).inter
      (isOpen_lt (by fun_prop) (by fun_prop)))
  · refine ⟨![0, 0, 0], ?_⟩
    simp only [Set.mem_inter_iff, Set.mem_setOf_eq, Matrix.cons_val, abs_zero]
    exact ⟨by linarith, by linarith, by linarith⟩
  · intro v hv
    exact ⟨hv.1.le, hv.2.1.le, hv.2.2.le⟩

theorem brick_box (a b c : ℝ) : ∀ v ∈ brick a b c, ∀ j, |v j - ![0, 0, 0] j| ≤ ![a, b, c] j / 2 := by
  rintro v ⟨h0, h1, h2⟩
  refine forall_fin3 ?_ ?_ ?_ <;> simp only [Matrix.cons_val, sub_zero]
  · exact h0
  · exact h1
  · exact h2

theorem brick_closed (a b c : ℝ) : IsClosed (brick a b c) := by
  rw [brick_eq]
  exact (isClosed_le (by fun_prop) (by fun_prop)).inter ((isClosed_le (by fun_prop) (by fun_prop)).inter
    (isClosed_le (by fun_prop) (by fun_prop)))

/-- `sphere(mass, R, N)` converges, but to the cube of side `R` instead of the ball of radius `R`. -/
theorem C84_sphere_is_a_cube (mass R : ℝ) (hm : mass ≠ 0) (hR : 0 < R) :
    Approximates atTop (fun N : ℕ => Shp.sphere mass R N) mass (brick R R R) := by
  classical
  have h := (approximates_box ![R, R, R] ![0, 0, 0]
    (forall_fin3 (by simpa using hR) (by simpa using hR) (by simpa using hR))
    (brick R R R) (compact_of_box (brick_closed _ _ _) _ _ (brick_box _ _ _)) (brick_nf _ _ _) (brick_vol hR hR hR)
    (brick_box _ _ _) mass (fun v => decide (Real.sqrt (v 0 ^ 2 + v 1 ^ 2 + v 2 ^ 2) ≤ R)) (by
      intro v hv
      have g0 := hv 0
      have g1 := hv 1
      have g2 := hv 2
      simp only [Matrix.cons_val, sub_zero] at g0 g1 g2
      rw [decide_eq_true_iff]
      refine iff_of_true ?_ ⟨g0.le, g1.le, g2.le⟩
      rw [Real.sqrt_le_left hR.le]
      have q0 := sq_lt_sq' (by linarith [abs_lt.1 g0]) (abs_lt.1 g0).2
      have q1 := sq_lt_sq' (by linarith [abs_lt.1 g1]) (abs_lt.1 g1).2
      have q2 := sq_lt_sq' (by linarith [abs_lt.1 g2]) (abs_lt.1 g2).2
      nlinarith)
    (fun n => mass / (n.1 : ℝ) ^ 3) (by
      intro n a b c
      have : (0 : ℝ) < n.1 := by exact_mod_cast a
      exact div_ne_zero hm (by positivity))).2
  have ht : Tendsto (fun N : ℕ => (N, N, N)) atTop (atTop : Filter (ℕ × ℕ × ℕ)) := by
    have h := (tendsto_id (α := ℕ) (x := atTop)).prodMk ((tendsto_id (α := ℕ) (x := atTop)).prodMk (tendsto_id (α := ℕ) (x := atTop)))
    rwa [prod_atTop_atTop_eq, prod_atTop_atTop_eq] at h
  refine (h.comp ht).congr' ?_
  filter_upwards [eventually_gt_atTop 0] with N hN
  rw [Shp.sphere, if_neg hN.ne']
  rfl

/-- `rectangle(mass, x, y, z, nx, ny, nz)` with `nx : ny` fixed to `a : b`: the array converges to the box moved by
`y (b-a)/(2b)` along y. -/
theorem C84_rectangle_shifted (mass x y z : ℝ) (a b : ℕ) (hm : mass ≠ 0) (hx : 0 < x) (hy : 0 < y) (hz : 0 < z)
    (ha : 0 < a) (hb : 0 < b) :
    Approximates atTop (fun n : ℕ × ℕ => Shp.rectangle mass x y z (a * n.1) (b * n.1) n.2) mass
      (shiftY (y * (b - a) / (2 * b)) (brick x y z)) := by
  classical
  set d := y * ((b : ℝ) - a) / (2 * b) with hd
  have heq : shiftY d (brick x y z) = {v : V3 | |v 0| ≤ x / 2} ∩ (({v : V3 | v 1 ≤ d + y / 2} ∩ {v : V3 | d - y / 2 ≤ v 1}) ∩
      {v : V3 | |v 2| ≤ z / 2}) := by
    ext v
    simp only [shiftY, brick, Set.mem_setOf_eq, Set.mem_inter_iff, Matrix.cons_val, abs_le]
    constructor
    · rintro ⟨g0, g1, g2⟩; exact ⟨g0, ⟨by linarith, by linarith⟩, g2⟩
    · rintro ⟨g0, g1, g2⟩; exact ⟨g0, ⟨by linarith, by linarith⟩, g2⟩
  have hbx : ∀ v ∈ shiftY d (brick x y z), ∀ j, |v j - ![0, d, 0] j| ≤ ![x, y, z] j / 2 := by
    rintro v ⟨h0, h1, h2⟩
    simp only [Matrix.cons_val] at h0 h1 h2
    refine forall_fin3 ?_ ?_ ?_ <;> simp only [Matrix.cons_val, sub_zero]
    · exact h0
    · exact h1
    · exact h2
  have hcl : IsClosed (shiftY d (brick x y z)) := by
    rw [heq]
    exact (isClosed_le (by fun_prop) (by fun_prop)).inter (((isClosed_le (by fun_prop) (by fun_prop)).inter
      (isClosed_le (by fun_prop) (by fun_prop))).inter (isClosed_le (by fun_prop) (by fun_prop)))
  have h := (approximates_box ![x, y, z] ![0, d, 0]
    (forall_fin3 (by simpa using hx) (by simpa using hy) (by simpa using hz))
    (shiftY d (brick x y z)) (compact_of_box hcl _ _ hbx)
    (by rw [heq]; exact nf_inter (nf_abs 0 _) (nf_inter (nf_inter (nf_le 1 _) (nf_ge 1 _)) (nf_abs 2 _)))
    (by
      refine vol_ne_of_open (U := {v : V3 | |v 0| < x / 2} ∩ (({v : V3 | v 1 < d + y / 2} ∩ {v : V3 | d - y / 2 < v 1}) ∩
        {v : V3 | |v 2| < z / 2})) ?_ ?_ ?_
      · exact (isOpen_lt (by fun_prop) (by fun_prop)).inter (((isOpen_lt (by fun_prop) (by fun_prop)).inter
          (isOpen_lt (by fun_prop) (by fun_prop))).inter (isOpen_lt (by fun_prop) (by fun_prop)))
      · refine ⟨![0, d, 0], ?_⟩
        simp only [Set.mem_inter_iff, Set.mem_setOf_eq, Matrix.cons_val, abs_zero]
        exact ⟨by linarith, ⟨by linarith, by linarith⟩, by linarith⟩
      · rw [heq]
        intro v hv
        simp only [Set.mem_inter_iff, Set.mem_setOf_eq] at hv ⊢
        exact ⟨hv.1.le, ⟨hv.2.1.1.le, hv.2.1.2.le⟩, hv.2.2.le⟩)
    hbx mass (fun _ => true) (by
      intro v hv
      have g0 := hv 0
      have g1 := hv 1
      have g2 := hv 2
      simp only [Matrix.cons_val, sub_zero] at g0 g1 g2
      refine iff_of_true rfl ?_
      exact ⟨by simpa using g0.le, by simpa using g1.le, by simpa using g2.le⟩)
    (fun n => mass / ((n.1 * n.2.1 * n.2.2 : ℕ) : ℝ)) (by
      intro n a b c
      exact div_ne_zero hm (by exact_mod_cast (by positivity : n.1 * n.2.1 * n.2.2 ≠ 0)))).2
  have ht : Tendsto (fun n : ℕ × ℕ => (a * n.1, b * n.1, n.2)) atTop (atTop : Filter (ℕ × ℕ × ℕ)) := by
    have p1 : Tendsto (fun n : ℕ × ℕ => n.1) atTop atTop := by
      rw [← prod_atTop_atTop_eq]; exact tendsto_fst
    have p2 : Tendsto (fun n : ℕ × ℕ => n.2) atTop atTop := by
      rw [← prod_atTop_atTop_eq]; exact tendsto_snd
    have h := (p1.const_mul_atTop' ha).prodMk ((p1.const_mul_atTop' hb).prodMk p2)
    rwa [prod_atTop_atTop_eq, prod_atTop_atTop_eq] at h
  refine (h.comp ht).congr' ?_
  filter_upwards [ev2] with n hn
  have hne : a * n.1 * (b * n.1) * n.2 ≠ 0 := by
    have := hn.1; have := hn.2; positivity
  rw [Shp.rectangle, if_neg hne]
  have hn0 : (n.1 : ℝ) ≠ 0 := by exact_mod_cast hn.1.ne'
  have hb0 : (b : ℝ) ≠ 0 := by exact_mod_cast hb.ne'
  set L := Shp.box (a * n.1) (b * n.1) n.2 (![x, y, z] 0 / ((a * n.1 : ℕ) : ℝ)) (![0, d, 0] 0)
      (![x, y, z] 1 / ((b * n.1 : ℕ) : ℝ)) (![0, d, 0] 1) (![x, y, z] 2 / ((n.2 : ℕ) : ℝ)) (![0, d, 0] 2) with hL
  have hg : (grid (a * n.1) (b * n.1) n.2 fun k l m =>
      ![node m (a * n.1) (x / ((a * n.1 : ℕ) : ℝ)) 0, ((l : ℝ) - (((a * n.1 : ℕ) : ℝ) - 1) / 2) * (y / ((b * n.1 : ℕ) : ℝ)),
        node k n.2 (z / n.2) 0]) = L := by
    rw [hL, Shp.box]
    congr 1
    funext k l m
    have : ((l : ℝ) - (((a * n.1 : ℕ) : ℝ) - 1) / 2) * (y / ((b * n.1 : ℕ) : ℝ)) = node l (b * n.1) (y / ((b * n.1 : ℕ) : ℝ)) d := by
      rw [node, hd]; push_cast; field_simp; ring
    rw [this]
    rfl
  have hlen : L.length = a * n.1 * (b * n.1) * n.2 := by
    rw [hL, Shp.box, length_grid]
  rw [hg]
  rw [List.filter_true]
  have hLne : L ≠ [] := by
    intro h0
    rw [h0] at hlen
    exact hne hlen.symm
  have hs : (L.map fun _ => mass / ((a * n.1 * (b * n.1) * n.2 : ℕ) : ℝ)).sum = mass := by
    rw [List.map_const', List.sum_replicate, nsmul_eq_mul, hlen]
    exact mul_div_cancel₀ _ (by exact_mod_cast hne)
  rw [rescale, if_neg hLne]
  simp only [hs]
  rw [if_neg hm, div_self hm, mul_one]

/-- With `nx = ny` the array of `rectangle` converges to the documented box. -/
theorem C84_rectangle (mass x y z : ℝ) (hm : mass ≠ 0) (hx : 0 < x) (hy : 0 < y) (hz : 0 < z) :
    Approximates atTop (fun n : ℕ × ℕ => Shp.rectangle mass x y z n.1 n.1 n.2) mass (brick x y z) := by
  have h := C84_rectangle_shifted mass x y z 1 1 hm hx hy hz one_pos one_pos
  have e : shiftY (y * ((1 : ℕ) - (1 : ℕ) : ℝ) / (2 * (1 : ℕ))) (brick x y z) = brick x y z := by
    ext v
    simp [shiftY, brick]
  rw [e] at h
  simpa using h

theorem mem_coneOver_rectangle {x y z : ℝ} (hx : 0 < x) (hy : 0 < y) (hz : 0 < z) (v : V3) :
    v ∈ coneOver z (Spec.rectangle x y) ↔ 0 ≤ v 2 ∧ v 2 ≤ z ∧ 2 * |v 0| * z ≤ x * (z - v 2) ∧ 2 * |v 1| * z ≤ y * (z - v 2) := by
  constructor
  · rintro ⟨s, hs0, hs1, ⟨p, q⟩, ⟨h0, h1⟩, e0, e1, e2⟩
    simp only at h0 h1 e0 e1
    rw [e0, e1, e2, abs_mul, abs_mul, abs_of_nonneg hs0]
    refine ⟨mul_nonneg (by linarith) hz.le, by nlinarith, ?_, ?_⟩
    · have := mul_le_mul_of_nonneg_left h0 (mul_nonneg hs0 hz.le); nlinarith
    · have := mul_le_mul_of_nonneg_left h1 (mul_nonneg hs0 hz.le); nlinarith
  · rintro ⟨g0, g1, g2, g3⟩
    rcases eq_or_lt_of_le g1 with h | h
    · rw [h, sub_self, mul_zero] at g2 g3
      have h0 : v 0 = 0 := by
        rw [← abs_eq_zero]
        refine le_antisymm ?_ (abs_nonneg _)
        by_contra hc; push Not at hc
        have := mul_pos hc hz; nlinarith
      have h1 : v 1 = 0 := by
        rw [← abs_eq_zero]
        refine le_antisymm ?_ (abs_nonneg _)
        by_contra hc; push Not at hc
        have := mul_pos hc hz; nlinarith
      exact ⟨0, le_rfl, zero_le_one, (0, 0), ⟨by simpa using by linarith, by simpa using by linarith⟩, by simp [h0], by simp [h1], by
        rw [h]; ring⟩
    · have hs : 0 < (z - v 2) / z := div_pos (by linarith) hz
      refine ⟨(z - v 2) / z, hs.le, by rw [div_le_one hz]; linarith, (v 0 / ((z - v 2) / z), v 1 / ((z - v 2) / z)), ⟨?_, ?_⟩, ?_, ?_, ?_⟩
      · simp only; rw [abs_div, abs_of_pos hs, div_le_iff₀ hs]
        have : x / 2 * ((z - v 2) / z) = (x * (z - v 2)) / (2 * z) := by field_simp
        rw [this, le_div_iff₀ (by positivity)]; linarith
      · simp only; rw [abs_div, abs_of_pos hs, div_le_iff₀ hs]
        have : y / 2 * ((z - v 2) / z) = (y * (z - v 2)) / (2 * z) := by field_simp
        rw [this, le_div_iff₀ (by positivity)]; linarith
      · simp only; rw [mul_div_cancel₀ _ hs.ne']
      · simp only; rw [mul_div_cancel₀ _ hs.ne']
      · field_simp; ring

theorem nf_absle (j : Fin 3) (w x z : ℝ) (hj : j = 0 ∨ j = 1) :
    volume (frontier {v : V3 | w * |v j| ≤ x * (z - v 2)}) = 0 ∨ w < 0 := by
  by_cases hw : w < 0
  · exact Or.inr hw
  refine Or.inl (nf_convex ?_)
  push Not at hw
  have : {v : V3 | w * |v j| ≤ x * (z - v 2)} = {v : V3 | w * v j + x * v 2 ≤ x * z} ∩ {v : V3 | -w * v j + x * v 2 ≤ x * z} := by
    ext v
    simp only [Set.mem_setOf_eq, Set.mem_inter_iff]
    have e : w * |v j| = |w * v j| := by rw [abs_mul, abs_of_nonneg hw]
    rw [e, abs_le]
    constructor
    · rintro ⟨a, b⟩; constructor <;> linarith
    · rintro ⟨a, b⟩; constructor <;> linarith
  rw [this]
  rcases hj with rfl | rfl
  · have h1 := convex_half w 0 x (x * z)
    have h2 := convex_half (-w) 0 x (x * z)
    simp only [zero_mul, add_zero] at h1 h2
    exact h1.inter h2
  · have h1 := convex_half 0 w x (x * z)
    have h2 := convex_half 0 (-w) x (x * z)
    simp only [zero_mul, zero_add] at h1 h2
    exact h1.inter h2

/-- `pyramid(mass, x, y, z, ...)` converges to the uniform pyramid over the base `|X| <= x/2`, `|Y| <= y/2`: half the
base sides that the docstring gives. -/
theorem C84_pyramid_half_base (mass x y z : ℝ) (hm : mass ≠ 0) (hx : 0 < x) (hy : 0 < y) (hz : 0 < z) :
    Approximates atTop (fun n : ℕ × ℕ × ℕ => Shp.pyramid mass x y z n.1 n.2.1 n.2.2) mass
      (coneOver z (Spec.rectangle x y)) := by
  classical
  have hden : z * y * x / 3 ≠ 0 := by positivity
  have hmem := mem_coneOver_rectangle hx hy hz
  have heq : coneOver z (Spec.rectangle x y) = {v : V3 | 0 ≤ v 2} ∩ ({v : V3 | v 2 ≤ z} ∩
      ({v : V3 | 2 * z * |v 0| ≤ x * (z - v 2)} ∩ {v : V3 | 2 * z * |v 1| ≤ y * (z - v 2)})) := by
    ext v
    rw [hmem]
    simp only [Set.mem_inter_iff, Set.mem_setOf_eq]
    rw [mul_right_comm 2 z, mul_right_comm 2 z]
  have hbx : ∀ v ∈ coneOver z (Spec.rectangle x y), ∀ j, |v j - ![0, 0, z / 2] j| ≤ ![x, y, z] j / 2 := by
    intro v hv
    obtain ⟨g0, g1, g2, g3⟩ := (hmem v).1 hv
    refine forall_fin3 ?_ ?_ ?_ <;> simp only [Matrix.cons_val, sub_zero]
    · have : 2 * |v 0| * z ≤ x * z := g2.trans (by nlinarith)
      have := le_of_mul_le_mul_right this hz; linarith
    · have : 2 * |v 1| * z ≤ y * z := g3.trans (by nlinarith)
      have := le_of_mul_le_mul_right this hz; linarith
    · rw [abs_le]; constructor <;> linarith
  have hcl : IsClosed (coneOver z (Spec.rectangle x y)) := by
    rw [heq]
    exact (isClosed_le (by fun_prop) (by fun_prop)).inter ((isClosed_le (by fun_prop) (by fun_prop)).inter
      ((isClosed_le (by fun_prop) (by fun_prop)).inter (isClosed_le (by fun_prop) (by fun_prop))))
  have n0 := (nf_absle 0 (2 * z) x z (Or.inl rfl)).resolve_right (by linarith)
  have n1 := (nf_absle 1 (2 * z) y z (Or.inr rfl)).resolve_right (by linarith)
  have h := (approximates_box ![x, y, z] ![0, 0, z / 2]
    (forall_fin3 (by simpa using hx) (by simpa using hy) (by simpa using hz))
    (coneOver z (Spec.rectangle x y)) (compact_of_box hcl _ _ hbx)
    (by rw [heq]; exact nf_inter (nf_ge 2 _) (nf_inter (nf_le 2 _) (nf_inter n0 n1)))
    (by
      refine vol_ne_of_open (U := {v : V3 | 0 < v 2} ∩ ({v : V3 | v 2 < z} ∩
        ({v : V3 | 2 * z * |v 0| < x * (z - v 2)} ∩ {v : V3 | 2 * z * |v 1| < y * (z - v 2)}))) ?_ ?_ ?_
      · exact (isOpen_lt (by fun_prop) (by fun_prop)).inter ((isOpen_lt (by fun_prop) (by fun_prop)).inter
          ((isOpen_lt (by fun_prop) (by fun_prop)).inter (isOpen_lt (by fun_prop) (by fun_prop))))
      · refine ⟨![0, 0, z / 2], ?_⟩
        simp only [Set.mem_inter_iff, Set.mem_setOf_eq, Matrix.cons_val, abs_zero]
        refine ⟨by linarith, by linarith, by rw [mul_zero]; exact mul_pos hx (by linarith),
          by rw [mul_zero]; exact mul_pos hy (by linarith)⟩
      · rw [heq]
        intro v hv
        simp only [Set.mem_inter_iff, Set.mem_setOf_eq] at hv ⊢
        exact ⟨hv.1.le, hv.2.1.le, hv.2.2.1.le, hv.2.2.2.le⟩)
    hbx mass (fun v => decide (
        (v 0 * y / 2 ≤ v 1 * x / 2 ∧ v 0 * y / 2 ≥ -(v 1 * x / 2) ∧ v 2 ≤ z * (1 - 2 * v 1 / y)) ∨
        (v 0 * y / 2 ≥ v 1 * x / 2 ∧ v 0 * y / 2 ≤ -(v 1 * x / 2) ∧ v 2 ≤ z * (1 + 2 * v 1 / y)) ∨
        (v 0 * y / 2 ≤ v 1 * x / 2 ∧ v 0 * y / 2 ≤ -(v 1 * x / 2) ∧ v 2 ≤ z * (1 + 2 * v 0 / x)) ∨
        (v 0 * y / 2 ≥ v 1 * x / 2 ∧ v 0 * y / 2 ≥ -(v 1 * x / 2) ∧ v 2 ≤ z * (1 - 2 * v 0 / x)))) (by
      intro v hv
      have g2 := hv 2
      simp only [Matrix.cons_val, sub_zero] at g2
      rw [abs_lt] at g2
      rw [decide_eq_true_iff, hmem]
      -- scaled coordinates
      obtain ⟨X, hX⟩ : ∃ X, X = 2 * v 0 / x := ⟨_, rfl⟩
      obtain ⟨Y, hY⟩ : ∃ Y, Y = 2 * v 1 / y := ⟨_, rfl⟩
      obtain ⟨w, hw⟩ : ∃ w, w = 1 - v 2 / z := ⟨_, rfl⟩
      have e0 : v 0 = X * x / 2 := by rw [hX]; field_simp
      have e1 : v 1 = Y * y / 2 := by rw [hY]; field_simp
      have e2 : v 2 = z * (1 - w) := by rw [hw]; field_simp; ring
      have c0 : ∀ s t : ℝ, s * x / 2 * y / 2 ≤ t * y / 2 * x / 2 ↔ s ≤ t := by
        intro s t
        have hp : 0 < x * y / 4 := by positivity
        rw [show s * x / 2 * y / 2 = s * (x * y / 4) by ring, show t * y / 2 * x / 2 = t * (x * y / 4) by ring]
        exact mul_le_mul_iff_of_pos_right hp
      have c1 : ∀ s t : ℝ, t * y / 2 * x / 2 ≤ s * x / 2 * y / 2 ↔ t ≤ s := by
        intro s t
        have hp : 0 < x * y / 4 := by positivity
        rw [show s * x / 2 * y / 2 = s * (x * y / 4) by ring, show t * y / 2 * x / 2 = t * (x * y / 4) by ring]
        exact mul_le_mul_iff_of_pos_right hp
      have c2 : ∀ s : ℝ, v 2 ≤ z * (1 - s) ↔ s ≤ w := by
        intro s
        rw [e2, mul_le_mul_iff_of_pos_left hz]
        constructor <;> intro h <;> linarith
      have c3 : 2 * |v 0| * z ≤ x * (z - v 2) ↔ |X| ≤ w := by
        rw [e0, e2, abs_div, abs_mul, abs_of_pos hx, abs_of_pos (two_pos : (0 : ℝ) < 2)]
        rw [show 2 * (|X| * x / 2) * z = x * z * |X| by ring, show x * (z - z * (1 - w)) = x * z * w by ring]
        exact mul_le_mul_iff_of_pos_left (by positivity)
      have c4 : 2 * |v 1| * z ≤ y * (z - v 2) ↔ |Y| ≤ w := by
        rw [e1, e2, abs_div, abs_mul, abs_of_pos hy, abs_of_pos (two_pos : (0 : ℝ) < 2)]
        rw [show 2 * (|Y| * y / 2) * z = y * z * |Y| by ring, show y * (z - z * (1 - w)) = y * z * w by ring]
        exact mul_le_mul_iff_of_pos_left (by positivity)
      have d1 : v 0 * y / 2 ≤ v 1 * x / 2 ↔ X ≤ Y := by rw [e0, e1]; exact c0 X Y
      have d2 : v 0 * y / 2 ≥ v 1 * x / 2 ↔ Y ≤ X := by rw [e0, e1]; exact c1 X Y
      have d3 : v 0 * y / 2 ≥ -(v 1 * x / 2) ↔ -Y ≤ X := by
        rw [e0, e1, show -(Y * y / 2 * x / 2) = -Y * y / 2 * x / 2 by ring]; exact c1 X (-Y)
      have d4 : v 0 * y / 2 ≤ -(v 1 * x / 2) ↔ X ≤ -Y := by
        rw [e0, e1, show -(Y * y / 2 * x / 2) = -Y * y / 2 * x / 2 by ring]; exact c0 X (-Y)
      have f1 : v 2 ≤ z * (1 - 2 * v 1 / y) ↔ Y ≤ w := by rw [← hY]; exact c2 Y
      have f2 : v 2 ≤ z * (1 + 2 * v 1 / y) ↔ -Y ≤ w := by rw [← hY, ← c2, sub_neg_eq_add]
      have f3 : v 2 ≤ z * (1 + 2 * v 0 / x) ↔ -X ≤ w := by rw [← hX, ← c2, sub_neg_eq_add]
      have f4 : v 2 ≤ z * (1 - 2 * v 0 / x) ↔ X ≤ w := by rw [← hX]; exact c2 X
      rw [d1, d2, d3, d4, f1, f2, f3, f4, c3, c4, abs_le, abs_le]
      have hz0 : 0 ≤ v 2 := by linarith [g2.1]
      have hz1 : v 2 ≤ z := by linarith [g2.2]
      constructor
      · rintro (⟨a, b, c⟩ | ⟨a, b, c⟩ | ⟨a, b, c⟩ | ⟨a, b, c⟩) <;>
          refine ⟨hz0, hz1, ⟨?_, ?_⟩, ⟨?_, ?_⟩⟩ <;> linarith
      · rintro ⟨-, -, ⟨a, b⟩, c, e⟩
        rcases le_total X Y with h | h <;> rcases le_total X (-Y) with h' | h'
        · right; right; left; exact ⟨h, h', by linarith⟩
        · left; exact ⟨h, by linarith, e⟩
        · right; left; exact ⟨h, h', by linarith⟩
        · right; right; right; exact ⟨h, by linarith, b⟩)
    (fun n => mass / (z * y * x / 3) * (x / n.1 * (y / n.2.1) * (z / n.2.2) / 3)) (by
      intro n a b c
      have : (0 : ℝ) < n.1 := by exact_mod_cast a
      have : (0 : ℝ) < n.2.1 := by exact_mod_cast b
      have : (0 : ℝ) < n.2.2 := by exact_mod_cast c
      refine mul_ne_zero (div_ne_zero hm hden) ?_
      positivity)).2
  refine h.congr' ?_
  filter_upwards [ev3] with n hn
  rw [Shp.pyramid, if_neg (by push Not; exact ⟨hn.2.2.ne', hn.1.ne', hn.2.1.ne', hden⟩)]
  rfl

/-- `platehole` converges to the plate part swept by horizontal discs of radius `r` (`slantedPlate`), which is narrower
than the documented tilted hole.  (The grid covers it whenever `t tan(theta)` is not too negative.) -/
theorem C84_platehole_slanted (mass t r theta : ℝ) (hm : mass ≠ 0) (ht : 0 < t) (hr : 0 < r)
    (hs : -(2 * r) ≤ 3 * (t * Real.tan theta)) :
    Approximates atTop (fun n : ℕ × ℕ × ℕ => Shp.platehole mass t r theta n.1 n.2.1 n.2.2) mass
      (slantedPlate t r theta) := by
  classical
  set s := Real.tan theta with hsd
  have hX : 0 < r + t * s / 2 := by linarith
  have hsq : 0 < Real.sqrt (1 + s ^ 2) := Real.sqrt_pos.2 (by positivity)
  have hden : Real.pi * Real.sqrt (1 + s ^ 2) * t * r ^ 2 ≠ 0 := by have := Real.pi_pos; positivity
  have heq : slantedPlate t r theta = {v : V3 | |v 2| ≤ t / 2} ∩ {v : V3 | v 1 ^ 2 + (v 0 - v 2 * s) ^ 2 ≤ r ^ 2} := rfl
  have hbx : ∀ v ∈ slantedPlate t r theta, ∀ j, |v j - ![0, 0, 0] j| ≤ ![2 * (2 * (r + t * s / 2)), 2 * r, t] j / 2 := by
    rintro v ⟨h2, h⟩
    rw [← hsd] at h
    have a1 : |v 1| ≤ r := abs_le_of_sq_le_sq (by nlinarith [sq_nonneg (v 0 - v 2 * s)]) hr.le
    have a0 : |v 0 - v 2 * s| ≤ r := abs_le_of_sq_le_sq (by nlinarith [sq_nonneg (v 1)]) hr.le
    refine forall_fin3 ?_ ?_ ?_ <;> simp only [Matrix.cons_val, sub_zero]
    · have b : |v 2 * s| ≤ t / 2 * |s| := by
        rw [abs_mul]; exact mul_le_mul_of_nonneg_right h2 (abs_nonneg _)
      have hc : |v 0| ≤ r + t / 2 * |s| := by
        have := abs_add_le (v 0 - v 2 * s) (v 2 * s)
        rw [sub_add_cancel] at this; linarith
      have hd : t / 2 * |s| ≤ r + t * s := by
        rcases abs_cases s with ⟨e, _⟩ | ⟨e, _⟩ <;> rw [e] <;> nlinarith
      linarith
    · linarith
    · exact h2
  have hcl : IsClosed (slantedPlate t r theta) := by
    rw [heq]
    exact (isClosed_le (by fun_prop) (by fun_prop)).inter (isClosed_le (by fun_prop) (by fun_prop))
  have h := (approximates_box ![2 * (2 * (r + t * s / 2)), 2 * r, t] ![0, 0, 0]
    (forall_fin3 (by simp only [Matrix.cons_val]; linarith) (by simpa using hr) (by simpa using ht))
    (slantedPlate t r theta) (compact_of_box hcl _ _ hbx)
    (by
      rw [heq]
      refine nf_inter (nf_abs 2 _) ?_
      have := nf_sq2 0 1 0 1 0 (-s) (r ^ 2)
      have e : {v : V3 | v 1 ^ 2 + (v 0 - v 2 * s) ^ 2 ≤ r ^ 2}
          = {v : V3 | (0 * v 0 + 1 * v 1 + 0 * v 2) ^ 2 + (1 * v 0 + 0 * v 1 + -s * v 2) ^ 2 ≤ r ^ 2} := by
        ext v
        simp only [Set.mem_setOf_eq]
        rw [show 0 * v 0 + 1 * v 1 + 0 * v 2 = v 1 by ring, show 1 * v 0 + 0 * v 1 + -s * v 2 = v 0 - v 2 * s by ring]
      rw [e, this])
    (by
      refine vol_ne_of_open (U := {v : V3 | |v 2| < t / 2} ∩ {v : V3 | v 1 ^ 2 + (v 0 - v 2 * s) ^ 2 < r ^ 2}) ?_ ?_ ?_
      · exact (isOpen_lt (by fun_prop) (by fun_prop)).inter (isOpen_lt (by fun_prop) (by fun_prop))
      · refine ⟨![0, 0, 0], ?_⟩
        simp only [Set.mem_inter_iff, Set.mem_setOf_eq, Matrix.cons_val, abs_zero]
        exact ⟨by linarith, by simpa using by positivity⟩
      · rw [heq]
        intro v hv
        simp only [Set.mem_inter_iff, Set.mem_setOf_eq] at hv ⊢
        exact ⟨hv.1.le, hv.2.le⟩)
    hbx mass (fun v => decide (v 1 ^ 2 + (v 0 - v 2 * s) ^ 2 ≤ r ^ 2)) (by
      intro v hv
      have g2 := hv 2
      simp only [Matrix.cons_val, sub_zero] at g2
      rw [decide_eq_true_iff]
      exact ⟨fun h => ⟨g2.le, h⟩, fun h => h.2⟩)
    (fun n => mass / (Real.pi * Real.sqrt (1 + s ^ 2) * t * r ^ 2) * (2 * (2 * (r + t * s / 2)) / n.1) * (2 * r / n.2.1) * (t / n.2.2)) (by
      intro n a b c
      have : (0 : ℝ) < n.1 := by exact_mod_cast a
      have : (0 : ℝ) < n.2.1 := by exact_mod_cast b
      have : (0 : ℝ) < n.2.2 := by exact_mod_cast c
      refine mul_ne_zero (mul_ne_zero (mul_ne_zero (div_ne_zero hm hden) ?_) ?_) ?_ <;> positivity)).2
  refine h.congr' ?_
  filter_upwards [ev3] with n hn
  rw [Shp.platehole, if_neg (by push Not; exact ⟨hn.2.2.ne', hn.2.1.ne'⟩)]
  rfl


/-! ### Regular polygons -/

theorem ngon_reduced {N : ℕ} (hN : 3 ≤ N) (th : ℝ) :
    ∃ (J : ℤ) (Q : ℝ), Q = th - 2 * Real.pi * J / N ∧ -(Real.pi / N) ≤ Q ∧ Q ≤ Real.pi / N ∧
      (if Real.pi / N < pyMod th (2 * (Real.pi / N)) then pyMod th (2 * (Real.pi / N)) - 2 * (Real.pi / N)
        else pyMod th (2 * (Real.pi / N))) = Q := by
  have hN0 : (0 : ℝ) < N := by exact_mod_cast (by omega : 0 < N)
  have hpi := Real.pi_pos
  have hphi : 0 < 2 * (Real.pi / N) := by positivity
  set q := pyMod th (2 * (Real.pi / N)) with hq
  have hq0 : 0 ≤ q := by
    rw [hq, pyMod]
    have := Int.floor_le (th / (2 * (Real.pi / N)))
    rw [le_div_iff₀ hphi] at this; linarith
  have hq1 : q < 2 * (Real.pi / N) := by
    rw [hq, pyMod]
    have := Int.lt_floor_add_one (th / (2 * (Real.pi / N)))
    rw [div_lt_iff₀ hphi] at this; linarith
  by_cases hc : Real.pi / N < q
  · refine ⟨⌊th / (2 * (Real.pi / N))⌋ + 1, q - 2 * (Real.pi / N), ?_, by linarith, by linarith, if_pos hc⟩
    rw [hq, pyMod]; push_cast; field_simp; ring
  · refine ⟨⌊th / (2 * (Real.pi / N))⌋, q, ?_, by linarith, by linarith, if_neg hc⟩
    rw [hq, pyMod]; field_simp

theorem polygon_reduced {N : ℕ} (hN : 3 ≤ N) (a r th Q : ℝ) (J : ℤ) (hr : 0 ≤ r) (hQ : Q = th - 2 * Real.pi * J / N)
    (hQ1 : -(Real.pi / N) ≤ Q) (hQ2 : Q ≤ Real.pi / N) :
    (r * Real.cos th, r * Real.sin th) ∈ regularPolygon N a 0 ↔ r * Real.cos Q ≤ apo N a := by
  have hN0 : (0 : ℝ) < N := by exact_mod_cast (by omega : 0 < N)
  rw [polygon_polar_int hN]
  constructor
  · intro h
    rw [hQ]; exact h J
  · intro hQc j
    have e := (polygon_polar_int hN a r Q).1 ((polygon_polar a r Q).2 fun j hj =>
      (mul_le_mul_of_nonneg_left (cos_le_cos_shift hN Q hQ1 hQ2 j hj) hr).trans hQc) (j - J)
    rw [show Q - 2 * Real.pi * ((j - J : ℤ) : ℝ) / N = th - 2 * Real.pi * j / N by
      rw [hQ]; push_cast; field_simp; ring] at e
    exact e

/-- `ngon_prism` (at least three sides) converges to the uniform regular prism. -/
theorem C84_ngon_prism (mass H a : ℝ) (N : ℕ) (hN : 3 ≤ N) (hm : mass ≠ 0) (hH : 0 < H) (ha : 0 < a) :
    Approximates atTop (fun n : ℕ × ℕ => Shp.ngonPrism mass H a N n.1 n.2) mass (prism H (regularPolygon N a 0)) := by
  classical
  have hN0 : (0 : ℝ) < N := by exact_mod_cast (by omega : 0 < N)
  have hap := apo_pos hN ha
  have hcos := cosN_pos hN
  have htan := tanN_pos hN
  have hsin : 0 < Real.sin (Real.pi / N) :=
    Real.sin_pos_of_pos_of_lt_pi (piN_pos hN) (by have := piN_lt hN; have := Real.pi_pos; linarith)
  set d := a / (2 * Real.sin (Real.pi / N)) with hd
  have hd0 : 0 < d := by positivity
  have hdc : d * Real.cos (Real.pi / N) = apo N a := by
    rw [hd, apo, Real.tan_eq_sin_div_cos]; field_simp
  have hb : 0 < a / (2 * Real.tan (Real.pi / N)) := by positivity
  have hden : (N : ℝ) * H * a * (a / (2 * Real.tan (Real.pi / N))) / 2 ≠ 0 := by positivity
  -- membership through the reduced angle
  have hpol : ∀ v : V3, ∃ Q : ℝ, -(Real.pi / N) ≤ Q ∧ Q ≤ Real.pi / N ∧
      (if Real.pi / N < pyMod (arctan2 (v 1) (v 0)) (2 * (Real.pi / N)) then
          pyMod (arctan2 (v 1) (v 0)) (2 * (Real.pi / N)) - 2 * (Real.pi / N)
        else pyMod (arctan2 (v 1) (v 0)) (2 * (Real.pi / N))) = Q ∧
      ((v 0, v 1) ∈ regularPolygon N a 0 ↔ Real.sqrt (v 0 ^ 2 + v 1 ^ 2) * Real.cos Q ≤ apo N a) := by
    intro v
    obtain ⟨J, Q, h0, h1, h2, h3⟩ := ngon_reduced hN (arctan2 (v 1) (v 0))
    refine ⟨Q, h1, h2, h3, ?_⟩
    have e := polygon_reduced hN a (Real.sqrt (v 0 ^ 2 + v 1 ^ 2)) (arctan2 (v 1) (v 0)) Q J (Real.sqrt_nonneg _) h0 h1 h2
    have px : Real.sqrt (v 0 ^ 2 + v 1 ^ 2) * Real.cos (arctan2 (v 1) (v 0)) = v 0 := polar_x (v 0) (v 1)
    have py : Real.sqrt (v 0 ^ 2 + v 1 ^ 2) * Real.sin (arctan2 (v 1) (v 0)) = v 1 := polar_y (v 0) (v 1)
    rw [px, py] at e
    exact e
  have heq : prism H (regularPolygon N a 0) = {v : V3 | |v 2| ≤ H / 2} ∩ ⋂ j ∈ Set.Iio N, {v : V3 |
      Real.cos (0 + 2 * Real.pi * j / N) * v 0 + Real.sin (0 + 2 * Real.pi * j / N) * v 1 + 0 * v 2 ≤ apo N a} := by
    ext v
    simp only [prism, regularPolygon, Set.mem_setOf_eq, Set.mem_inter_iff, Set.mem_iInter, Set.mem_Iio, abs_le, apo]
    rw [and_assoc]
    refine and_congr_right fun _ => and_congr_right fun _ => forall₂_congr fun j _ => ?_
    constructor <;> intro h <;> linarith
  have hbx : ∀ v ∈ prism H (regularPolygon N a 0), ∀ j, |v j - ![0, 0, 0] j| ≤ ![2 * d, 2 * d, H] j / 2 := by
    rintro v ⟨h0, h1, h2⟩
    obtain ⟨Q, g0, g1, -, g2⟩ := hpol v
    have g3 := g2.1 h2
    have hcQ : Real.cos (Real.pi / N) ≤ Real.cos Q := by
      rw [← Real.cos_abs Q]
      exact Real.cos_le_cos_of_nonneg_of_le_pi (abs_nonneg _) (by have := piN_lt hN; have := Real.pi_pos; linarith)
        (abs_le.2 ⟨g0, g1⟩)
    have hr : Real.sqrt (v 0 ^ 2 + v 1 ^ 2) ≤ d := by
      have : Real.sqrt (v 0 ^ 2 + v 1 ^ 2) * Real.cos (Real.pi / N) ≤ d * Real.cos (Real.pi / N) := by
        rw [hdc]
        exact (mul_le_mul_of_nonneg_left hcQ (Real.sqrt_nonneg _)).trans g3
      exact le_of_mul_le_mul_right this hcos
    rw [Real.sqrt_le_left hd0.le] at hr
    refine forall_fin3 ?_ ?_ ?_ <;> simp only [Matrix.cons_val, sub_zero]
    · rw [mul_div_cancel_left₀ _ two_ne_zero]; exact abs_le_of_sq_le_sq (by nlinarith [sq_nonneg (v 1)]) hd0.le
    · rw [mul_div_cancel_left₀ _ two_ne_zero]; exact abs_le_of_sq_le_sq (by nlinarith [sq_nonneg (v 0)]) hd0.le
    · exact abs_le.2 ⟨by linarith, by linarith⟩
  have h := (approximates_box ![2 * d, 2 * d, H] ![0, 0, 0]
    (forall_fin3 (by simpa using hd0) (by simpa using hd0) (by simpa using hH))
    (prism H (regularPolygon N a 0)) (prism_compact _ _ (polygon_compact hN ha))
    (by
      rw [heq]
      refine nf_inter (nf_abs 2 _) (nf_convex ?_)
      exact convex_iInter₂ fun j _ => convex_half _ _ _ _)
    (by
      refine vol_ne_of_open (U := {v : V3 | |v 2| < H / 2} ∩ {v : V3 | v 0 ^ 2 + v 1 ^ 2 < apo N a ^ 2}) ?_ ?_ ?_
      · exact (isOpen_lt (by fun_prop) (by fun_prop)).inter (isOpen_lt (by fun_prop) (by fun_prop))
      · refine ⟨![0, 0, 0], ?_⟩
        simp only [Set.mem_inter_iff, Set.mem_setOf_eq, Matrix.cons_val, abs_zero]
        exact ⟨by linarith, by simpa using by positivity⟩
      · rw [heq]
        intro v hv
        simp only [Set.mem_inter_iff, Set.mem_setOf_eq, Set.mem_iInter] at hv ⊢
        refine ⟨hv.1.le, fun j _ => ?_⟩
        refine (le_abs_self _).trans (abs_le_of_sq_le_sq ?_ hap.le)
        set al := 0 + 2 * Real.pi * (j : ℝ) / N
        nlinarith [Real.sin_sq_add_cos_sq al, sq_nonneg (Real.cos al * v 1 - Real.sin al * v 0), hv.2])
    hbx mass (fun v => decide (Real.sqrt (v 0 ^ 2 + v 1 ^ 2) * Real.cos
        (if Real.pi / N < pyMod (arctan2 (v 1) (v 0)) (2 * (Real.pi / N)) then
          pyMod (arctan2 (v 1) (v 0)) (2 * (Real.pi / N)) - 2 * (Real.pi / N)
        else pyMod (arctan2 (v 1) (v 0)) (2 * (Real.pi / N))) ≤ a / (2 * Real.tan (Real.pi / N)))) (by
      intro v hv
      have g2 := hv 2
      simp only [Matrix.cons_val, sub_zero] at g2
      rw [abs_lt] at g2
      obtain ⟨Q, -, -, e, g⟩ := hpol v
      rw [decide_eq_true_iff, e]
      rw [apo] at g
      exact ⟨fun h => ⟨by linarith [g2.1], by linarith [g2.2], g.2 h⟩, fun h => g.1 h.2.2⟩)
    (fun n => mass / ((N : ℝ) * H * a * (a / (2 * Real.tan (Real.pi / N))) / 2) * (2 * d / n.1 * (2 * d / n.1) * (H / n.2.2) / 2)) (by
      intro n a b c
      have : (0 : ℝ) < n.1 := by exact_mod_cast a
      have : (0 : ℝ) < n.2.2 := by exact_mod_cast c
      refine mul_ne_zero (div_ne_zero hm hden) ?_
      positivity)).2
  refine (h.comp tendsto_dup).congr' ?_
  filter_upwards [ev2] with n hn
  rw [Shp.ngonPrism, if_neg (by push Not; exact ⟨by omega, hn.2.ne'⟩)]
  rfl

/-! ## Instances -/

example : Approximates atTop (fun n : ℕ × ℕ => Shp.rectangle 2 1 3 5 (1 * n.1) (2 * n.1) n.2) 2
    (shiftY (3 * ((2 : ℕ) - (1 : ℕ)) / (2 * (2 : ℕ))) (brick 1 3 5)) :=
  C84_rectangle_shifted 2 1 3 5 1 2 (by norm_num) (by norm_num) (by norm_num) (by norm_num) (by norm_num) (by norm_num)

example : Approximates atTop (fun n : ℕ × ℕ × ℕ => Shp.platehole 2 1 3 (Real.pi / 4) n.1 n.2.1 n.2.2) 2
    (slantedPlate 1 3 (Real.pi / 4)) :=
  C84_platehole_slanted 2 1 3 _ (by norm_num) (by norm_num) (by norm_num) (by rw [Real.tan_pi_div_four]; norm_num)

example : Approximates atTop (fun n : ℕ × ℕ => Shp.ngonPrism 2 1 3 6 n.1 n.2) 2 (prism 1 (regularPolygon 6 3 0)) :=
  C84_ngon_prism 2 1 3 6 (by norm_num) (by norm_num) (by norm_num) (by norm_num)

end Newt
