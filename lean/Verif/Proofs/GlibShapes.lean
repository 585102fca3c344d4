import Verif.Model.GlibShapes
import Verif.Spec.PointSolids

/-! # Lemmas about the point-mass generators -/

namespace Newt.Shp

open Spec Finset

theorem mem_grid {nx ny nz : ℕ} {f : ℕ → ℕ → ℕ → V3} {v : V3} :
    v ∈ grid nx ny nz f ↔ ∃ k < nz, ∃ l < ny, ∃ m < nx, f k l m = v := by
  simp [grid]

theorem mem_box {nx ny nz : ℕ} {hx cx hy cy hz cz : ℝ} {v : V3} (h : v ∈ box nx ny nz hx cx hy cy hz cz) :
    ∃ k < nz, ∃ l < ny, ∃ m < nx, v 0 = node m nx hx cx ∧ v 1 = node l ny hy cy ∧ v 2 = node k nz hz cz := by
  obtain ⟨k, hk, l, hl, m, hm, rfl⟩ := mem_grid.1 h
  exact ⟨k, hk, l, hl, m, hm, by simp, by simp, by simp⟩

theorem node_bounds {i n : ℕ} (hi : i < n) {W : ℝ} (hW : 0 < W) (c : ℝ) :
    c - W / 2 < node i n (W / n) c ∧ node i n (W / n) c < c + W / 2 := by
  have hn : (0 : ℝ) < n := by exact_mod_cast (by omega : 0 < n)
  have h1 : (i : ℝ) + 1 ≤ n := by exact_mod_cast hi
  have h0 : (0 : ℝ) ≤ i := Nat.cast_nonneg i
  have e : node i n (W / n) c = c + W * ((i : ℝ) - ((n : ℝ) - 1) / 2) / n := by rw [node]; ring
  rw [e]
  constructor
  · have : -(W / 2) < W * ((i : ℝ) - ((n : ℝ) - 1) / 2) / n := by
      rw [lt_div_iff₀ hn]; nlinarith
    linarith
  · have : W * ((i : ℝ) - ((n : ℝ) - 1) / 2) / n < W / 2 := by
      rw [div_lt_iff₀ hn]; nlinarith
    linarith

theorem node_abs {i n : ℕ} (hi : i < n) {W : ℝ} (hW : 0 < W) : |node i n (W / n) 0| < W / 2 := by
  have := node_bounds hi hW 0
  rw [abs_lt]; constructor <;> linarith [this.1, this.2]

theorem rescale_ok {mass pm : ℝ} {pts : List V3} {A : PtArray} (h : rescale mass pm pts = .ok A) :
    A = pts.map (fun p => ⟨mass / pts.length, p⟩) := by
  rw [rescale] at h
  simp only [List.map_const', List.sum_replicate, nsmul_eq_mul] at h
  split_ifs at h with h1 h2
  · injection h with h; subst h1; simpa using h.symm
  · injection h with h
    rw [← h]
    refine List.map_congr_left fun p _ => ?_
    have h3 : pm ≠ 0 := fun h => h2 (by rw [h, mul_zero])
    have h4 : (pts.length : ℝ) ≠ 0 := fun h => h2 (by rw [h, zero_mul])
    congr 1
    field_simp

theorem rescale1_ok {mass pm : ℝ} {pts : List V3} {A : PtArray} (h : rescale1 mass pm pts = .ok A) :
    pts ≠ [] ∧ A = pts.map (fun p => ⟨mass / pts.length, p⟩) := by
  rw [rescale1] at h
  split_ifs at h with h1
  exact ⟨h1, rescale_ok h⟩

theorem totalMass_map {mass : ℝ} {pts : List V3} (h : pts ≠ []) :
    totalMass (pts.map (fun p => (⟨mass / pts.length, p⟩ : Pt))) = mass := by
  have h4 : (pts.length : ℝ) ≠ 0 := by exact_mod_cast fun h' => h (List.length_eq_zero_iff.1 h')
  simp only [totalMass, List.map_map, Function.comp_def, List.map_const', List.sum_replicate, nsmul_eq_mul]
  field_simp

theorem rescale_total {mass pm : ℝ} {pts : List V3} {A : PtArray} (h : rescale mass pm pts = .ok A)
    (hA : A ≠ []) : totalMass A = mass := by
  have := rescale_ok h
  subst this
  exact totalMass_map fun h => hA (by rw [h]; rfl)

theorem rescale_inside {mass pm : ℝ} {pts : List V3} {A : PtArray} {S : Set V3}
    (h : rescale mass pm pts = .ok A) (hS : ∀ v ∈ pts, v ∈ S) : Inside A S := by
  have := rescale_ok h
  subst this
  intro p hp
  simp only [List.mem_map] at hp
  obtain ⟨v, hv, rfl⟩ := hp
  exact hS v hv

/-! ## Sums over the grid -/

theorem sum_flatMap (n : ℕ) (f : ℕ → List ℝ) :
    ((List.range n).flatMap f).sum = ∑ k ∈ range n, (f k).sum := by
  induction n with
  | zero => simp
  | succ n ih => rw [List.range_succ, List.flatMap_append, List.sum_append, ih, sum_range_succ]; simp

theorem sum_map_range (n : ℕ) (f : ℕ → ℝ) : ((List.range n).map f).sum = ∑ k ∈ range n, f k := by
  induction n with
  | zero => simp
  | succ n ih => rw [List.range_succ, List.map_append, List.sum_append, ih, sum_range_succ]; simp

theorem sum_grid (nx ny nz : ℕ) (f : ℕ → ℕ → ℕ → V3) (g : V3 → ℝ) :
    ((grid nx ny nz f).map g).sum
      = ∑ k ∈ range nz, ∑ l ∈ range ny, ∑ m ∈ range nx, g (f k l m) := by
  rw [grid, List.map_flatMap, sum_flatMap]
  refine sum_congr rfl fun k _ => ?_
  rw [List.map_flatMap, sum_flatMap]
  refine sum_congr rfl fun l _ => ?_
  rw [List.map_map, sum_map_range]
  rfl

open Classical in
theorem sum_filter (L : List V3) (p : V3 → Prop) (g : V3 → ℝ) :
    ((L.filter fun v => p v).map g).sum = (L.map fun v => if p v then g v else 0).sum := by
  induction L with
  | nil => simp
  | cons a L ih => by_cases h : p a <;> simp [h, ih]

theorem node_reflect {i n : ℕ} (hi : i < n) (h : ℝ) : node (n - 1 - i) n h 0 = -node i n h 0 := by
  rw [node, node, Nat.cast_sub (by omega), Nat.cast_sub (by omega)]; push_cast; ring

/-- Reflecting a grid axis (`s = true`) of a centred grid negates the coordinate. -/
theorem sum_axis (n : ℕ) (h : ℝ) (G : ℝ → ℝ) :
    ∑ i ∈ range n, G (node i n h 0) = ∑ i ∈ range n, G (-node i n h 0) := by
  rw [← sum_range_reflect]
  exact sum_congr rfl fun i hi => by rw [node_reflect (mem_range.1 hi)]

open Classical in
/-- A coordinate sums to zero over a grid that is symmetric in `z`. -/
theorem sum_z (nx ny nz : ℕ) (hx cx hy cy hz : ℝ) (p : V3 → Prop) (g : V3 → ℝ)
    (hp : ∀ x y z, p ![x, y, -z] ↔ p ![x, y, z]) (hg : ∀ x y z, g ![x, y, -z] = -g ![x, y, z]) :
    (((box nx ny nz hx cx hy cy hz 0).filter fun v => p v).map g).sum = 0 := by
  rw [sum_filter, box, sum_grid]
  set T := ∑ k ∈ range nz, ∑ l ∈ range ny, ∑ m ∈ range nx,
    (if p ![node m nx hx cx, node l ny hy cy, node k nz hz 0] then
      g ![node m nx hx cx, node l ny hy cy, node k nz hz 0] else 0) with hT
  have h := sum_axis nz hz fun z => ∑ l ∈ range ny, ∑ m ∈ range nx,
    (if p ![node m nx hx cx, node l ny hy cy, z] then g ![node m nx hx cx, node l ny hy cy, z] else 0)
  rw [← hT] at h
  have h2 : ∑ k ∈ range nz, ∑ l ∈ range ny, ∑ m ∈ range nx,
      (if p ![node m nx hx cx, node l ny hy cy, -node k nz hz 0] then
        g ![node m nx hx cx, node l ny hy cy, -node k nz hz 0] else 0) = -T := by
    simp only [hp, hg, hT, ← sum_neg_distrib]
    refine sum_congr rfl fun k _ => sum_congr rfl fun l _ => sum_congr rfl fun m _ => ?_
    split_ifs <;> simp
  have h3 : T = -T := h.trans h2
  change T = 0
  linarith

open Classical in
theorem sum_y (nx ny nz : ℕ) (hx cx hy hz cz : ℝ) (p : V3 → Prop) (g : V3 → ℝ)
    (hp : ∀ x y z, p ![x, -y, z] ↔ p ![x, y, z]) (hg : ∀ x y z, g ![x, -y, z] = -g ![x, y, z]) :
    (((box nx ny nz hx cx hy 0 hz cz).filter fun v => p v).map g).sum = 0 := by
  rw [sum_filter, box, sum_grid]
  change ∑ k ∈ range nz, _ = (0 : ℝ)
  refine sum_eq_zero fun k _ => ?_
  set T := ∑ l ∈ range ny, ∑ m ∈ range nx,
    (if p ![node m nx hx cx, node l ny hy 0, node k nz hz cz] then
      g ![node m nx hx cx, node l ny hy 0, node k nz hz cz] else 0) with hT
  have h := sum_axis ny hy fun y => ∑ m ∈ range nx,
    (if p ![node m nx hx cx, y, node k nz hz cz] then g ![node m nx hx cx, y, node k nz hz cz] else 0)
  rw [← hT] at h
  have h2 : ∑ l ∈ range ny, ∑ m ∈ range nx,
      (if p ![node m nx hx cx, -node l ny hy 0, node k nz hz cz] then
        g ![node m nx hx cx, -node l ny hy 0, node k nz hz cz] else 0) = -T := by
    simp only [hp, hg, hT, ← sum_neg_distrib]
    refine sum_congr rfl fun l _ => sum_congr rfl fun m _ => ?_
    split_ifs <;> simp
  have h3 : T = -T := h.trans h2
  linarith

open Classical in
theorem sum_x (nx ny nz : ℕ) (hx hy cy hz cz : ℝ) (p : V3 → Prop) (g : V3 → ℝ)
    (hp : ∀ x y z, p ![-x, y, z] ↔ p ![x, y, z]) (hg : ∀ x y z, g ![-x, y, z] = -g ![x, y, z]) :
    (((box nx ny nz hx 0 hy cy hz cz).filter fun v => p v).map g).sum = 0 := by
  rw [sum_filter, box, sum_grid]
  change ∑ k ∈ range nz, _ = (0 : ℝ)
  refine sum_eq_zero fun k _ => sum_eq_zero fun l _ => ?_
  set T := ∑ m ∈ range nx,
    (if p ![node m nx hx 0, node l ny hy cy, node k nz hz cz] then
      g ![node m nx hx 0, node l ny hy cy, node k nz hz cz] else 0) with hT
  have h := sum_axis nx hx fun x =>
    (if p ![x, node l ny hy cy, node k nz hz cz] then g ![x, node l ny hy cy, node k nz hz cz] else 0)
  rw [← hT] at h
  have h2 : ∑ m ∈ range nx,
      (if p ![-node m nx hx 0, node l ny hy cy, node k nz hz cz] then
        g ![-node m nx hx 0, node l ny hy cy, node k nz hz cz] else 0) = -T := by
    simp only [hp, hg, hT, ← sum_neg_distrib]
    refine sum_congr rfl fun m _ => ?_
    split_ifs <;> simp
  have h3 : T = -T := h.trans h2
  linarith

open Classical in
/-- Point reflection. -/
theorem sum_pt (nx ny nz : ℕ) (hx hy hz : ℝ) (p : V3 → Prop) (g : V3 → ℝ)
    (hp : ∀ x y z, p ![-x, -y, -z] ↔ p ![x, y, z]) (hg : ∀ x y z, g ![-x, -y, -z] = -g ![x, y, z]) :
    (((box nx ny nz hx 0 hy 0 hz 0).filter fun v => p v).map g).sum = 0 := by
  rw [sum_filter, box, sum_grid]
  set T := ∑ k ∈ range nz, ∑ l ∈ range ny, ∑ m ∈ range nx,
    (if p ![node m nx hx 0, node l ny hy 0, node k nz hz 0] then
      g ![node m nx hx 0, node l ny hy 0, node k nz hz 0] else 0) with hT
  have h := sum_axis nz hz fun z => ∑ l ∈ range ny, ∑ m ∈ range nx,
    (if p ![node m nx hx 0, node l ny hy 0, z] then g ![node m nx hx 0, node l ny hy 0, z] else 0)
  rw [← hT] at h
  have h1 : ∀ z : ℝ, ∑ l ∈ range ny, ∑ m ∈ range nx,
      (if p ![node m nx hx 0, node l ny hy 0, z] then g ![node m nx hx 0, node l ny hy 0, z] else 0)
      = ∑ l ∈ range ny, ∑ m ∈ range nx,
      (if p ![-node m nx hx 0, -node l ny hy 0, z] then g ![-node m nx hx 0, -node l ny hy 0, z] else 0) := by
    intro z
    rw [sum_axis ny hy fun y => ∑ m ∈ range nx,
      (if p ![node m nx hx 0, y, z] then g ![node m nx hx 0, y, z] else 0)]
    refine sum_congr rfl fun l _ => ?_
    exact sum_axis nx hx fun x =>
      (if p ![x, -node l ny hy 0, z] then g ![x, -node l ny hy 0, z] else 0)
  have h2 : ∑ k ∈ range nz, ∑ l ∈ range ny, ∑ m ∈ range nx,
      (if p ![node m nx hx 0, node l ny hy 0, -node k nz hz 0] then
        g ![node m nx hx 0, node l ny hy 0, -node k nz hz 0] else 0) = -T := by
    rw [hT]
    simp only [← sum_neg_distrib]
    refine sum_congr rfl fun k _ => (h1 _).trans (sum_congr rfl fun l _ => sum_congr rfl fun m _ => ?_)
    simp only [hp, hg]
    split_ifs <;> simp
  have h3 : T = -T := h.trans h2
  change T = 0
  linarith

theorem rescale_first {mass pm : ℝ} {pts : List V3} {A : PtArray} (h : rescale mass pm pts = .ok A)
    (i : Fin 3) (hs : (pts.map fun v => v i).sum = 0) : firstMoment A i = 0 := by
  have := rescale_ok h
  subst this
  simp only [firstMoment, List.map_map, Function.comp_def]
  rw [List.sum_map_mul_left, hs, mul_zero]

/-! ## Polar membership -/

theorem polar_x (x y : ℝ) : Real.sqrt (x ^ 2 + y ^ 2) * Real.cos (arctan2 y x) = x := by
  have hn : ‖(⟨x, y⟩ : ℂ)‖ = Real.sqrt (x ^ 2 + y ^ 2) := by
    rw [Complex.norm_def, Complex.normSq_apply]; congr 1; ring
  rw [← hn]; exact Complex.norm_mul_cos_arg _

theorem polar_y (x y : ℝ) : Real.sqrt (x ^ 2 + y ^ 2) * Real.sin (arctan2 y x) = y := by
  have hn : ‖(⟨x, y⟩ : ℂ)‖ = Real.sqrt (x ^ 2 + y ^ 2) := by
    rw [Complex.norm_def, Complex.normSq_apply]; congr 1; ring
  rw [← hn]; exact Complex.norm_mul_sin_arg _

end Newt.Shp
