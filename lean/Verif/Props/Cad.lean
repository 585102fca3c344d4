import Verif.Model.ShapeClasses
import Verif.Proofs.CadNgon
import Verif.Proofs.MpcShapes
import Verif.Props.QlmNum
import Verif.Props.BigQlm

/-!
# C75-C79: meshes and classes
-/

namespace Newt

open Spec MeasureTheory

/-! ## C75: the mesh fills the body whose moments are computed -/

theorem C75_annulus (L : ℕ) (mass H Ri Ro phic phih : ℝ) (hH : 0 < H) (hRi : 0 ≤ Ri) (hR : Ri < Ro) (h0 : 0 < phih)
    (hpi : phih ≤ Real.pi) :
    Cls.annulus L true mass H Ri Ro phic phih = .ok ⟨true, L,
      some (Mom.ofFn L (uniformMoment mass (prism H (sector Ri Ro phic phih)))), some 0, mass,
      some ⟨prism H (sector Ri Ro phic phih), decide (0 < mass)⟩⟩ := by
  rw [Cls.annulus]
  simp only [if_true]
  rw [Cad.annulus_solid _ H Ri Ro phic phih hH hR.le, Shape.annulus, C36_annulus L mass H Ri Ro phic phih hH hRi hR h0 hpi]
  rfl

theorem C75_rect_prism (L : ℕ) (mass H a b phic : ℝ) (hH : 0 < H) (ha : 0 < a) (hb : 0 < b) :
    Cls.rectPrism L true mass H a b phic = .ok ⟨true, L,
      some (Mom.ofFn L (uniformMoment mass (prism H (rotated phic (rectangle a b))))), some 0, mass,
      some ⟨prism H (rotated phic (rectangle a b)), decide (0 < mass)⟩⟩ := by
  rw [Cls.rectPrism]
  simp only [if_true]
  rw [Cad.rect_solid, Shape.rectPrism, C36_rect_prism L mass H a b phic hH ha hb]
  rfl

theorem C75_tri_prism (L : ℕ) (mass H d y1 y2 : ℝ) (hH : 0 < H) (hd : d ≠ 0) (hy : y1 ≠ y2) :
    Cls.triPrism L true mass H d y1 y2 = .ok ⟨true, L,
      some (Mom.ofFn L (uniformMoment mass (prism H (triangle (d, y1) (d, y2))))), some 0, mass,
      some ⟨prism H (triangle (d, y1) (d, y2)), decide (0 < mass)⟩⟩ := by
  rw [Cls.triPrism]
  simp only [if_true]
  rw [Cad.tri_solid, Shape.triPrism, C36_tri_prism L mass H d y1 y2 hH hd hy]
  rfl

theorem C75_cone (L : ℕ) (mass P R phic phih : ℝ) (hP : 0 < P) (hR : 0 < R) (h0 : 0 < phih) (hpi : phih ≤ Real.pi) :
    Cls.cone L true mass P R phic phih = .ok ⟨true, L,
      some (Mom.ofFn L (uniformMoment mass (coneOver P (sector 0 R phic phih)))), some 0, mass,
      some ⟨coneOver P (sector 0 R phic phih), decide (0 < mass)⟩⟩ := by
  rw [Cls.cone]
  simp only [if_true]
  rw [Cad.cone_solid _ P R phic phih hR, Shape.cone, C36_cone L mass P R phic phih hP hR h0 hpi]
  rfl

theorem C75_tetrahedron (L : ℕ) (mass x y1 y2 z : ℝ) (hx : 0 < x) (hy : y1 ≠ y2) (hz : 0 < z) :
    Cls.tetrahedron L true mass x y1 y2 z = .ok ⟨true, L,
      some (Mom.ofFn L (uniformMoment mass (coneOver z (triangle (x, y1) (x, y2))))), some 0, mass,
      some ⟨coneOver z (triangle (x, y1) (x, y2)), decide (0 < mass)⟩⟩ := by
  rw [Cls.tetrahedron]
  simp only [if_true]
  rw [Cad.tet2_solid, Shape.tetrahedron, C36_tetrahedron2 L mass x y1 y2 z hx hy hz]
  rfl

/-- A sphere: mesh and moments are those of the ball about the centre. -/
theorem C75_sphere (L : ℕ) (mass R : ℝ) (center : V3) (hR : 0 < R) :
    ∃ s, Cls.sphere L true mass R center = .ok s ∧
      s.mesh = some ⟨ballAt R center, decide (0 < mass)⟩ ∧ s.com = some center ∧
      Books L s ((Body.solid mass (ball R) (ball_compact R)).translate center) := by
  refine ⟨Shape.sphere L mass R center (Cad.sphere (decide (mass > 0)) R), rfl, ?_, ?_, C38_sphere L mass R center _ hR⟩
  · have hm : (Shape.sphere L mass R center (Cad.sphere (decide (mass > 0)) R)).mesh
        = some (Shape.translateMesh (Cad.sphere (decide (mass > 0)) R) center) := by
      simp [Shape.sphere, Shape.translate]
    rw [hm]
    have : {w | ∃ u ∈ (Cad.sphere (decide (mass > 0)) R).solid, u + center = w} = ballAt R center := by
      ext w
      constructor
      · rintro ⟨u, hu, rfl⟩
        change modulus (u + center - center) ≤ R
        rw [add_sub_cancel_right]; exact hu
      · intro hw
        exact ⟨w - center, hw, sub_add_cancel _ _⟩
    rw [Shape.translateMesh, this]
    rfl
  · simp [Shape.sphere, Shape.translate]

/-- The mesh functions that no class uses. -/
theorem C75_functions (L : ℕ) (p : Bool) (mass : ℝ) :
    (∀ R, 0 < R → Qlm.sphere L mass R = Mom.ofFn L (uniformMoment mass (Cad.sphere p R).solid)) ∧
    (∀ H R, 0 < H → 0 < R → Qlm.cylinder L mass H R = .ok (Mom.ofFn L (uniformMoment mass (Cad.cylinder p H R).solid))) ∧
    (∀ H a d phic, 0 < H → 0 < a → d ≠ 0 →
      Qlm.triIsoPrism L mass H a d phic = .ok (Mom.ofFn L (uniformMoment mass (Cad.triIsoPrism p H a d phic).solid))) ∧
    (∀ H R phic phih, 0 < H → 0 < R → 0 < phih → phih < Real.pi / 2 →
      Qlm.triIsoPrism2 L mass H R phic phih
        = .ok (Mom.ofFn L (uniformMoment mass (Cad.triIsoPrism2 p H R phic phih).solid))) ∧
    (∀ x y z, 0 < x → 0 < y → 0 < z →
      Qlm.tetrahedron L mass x y z = .ok (Mom.ofFn L (uniformMoment mass (Cad.tetrahedron p x y z).solid))) := by
  refine ⟨?_, ?_, ?_, ?_, ?_⟩
  · intro R hR; exact C36_sphere L mass R hR
  · intro H R hH hR; rw [C36_cylinder L mass H R hH hR, Cad.cylinder, Cad.cyl_prism]
  · intro H a d phic hH ha hd; rw [C36_tri_iso_prism L mass H a d phic hH ha hd, Cad.tri_iso_solid]
  · intro H R phic phih hH hR h0 h2; rw [C36_tri_iso_prism2 L mass H R phic phih hH hR h0 h2, Cad.tri_iso2_solid]
  · intro x y z hx hy hz; rw [C36_tetrahedron L mass x y z hx hy hz, Cad.tet_solid]

/-- A cone frustum: the profile `(0,0), (r2,0), (r1,H), (0,H)` turned through the sector.  Every horizontal
section is a sector of radius falling linearly from `r2` to `r1`. -/
theorem C75_frustum (p : Bool) (H r1 r2 phic phih : ℝ) (hH : 0 < H) (h1 : 0 < r1) (h2 : 0 < r2) :
    (Cad.cone p H r1 r2 phic phih).solid = {v | ∃ s, 0 ≤ s ∧ s ≤ 1 ∧ v 2 = s * H ∧
      (v 0, v 1) ∈ sector 0 ((1 - s) * r2 + s * r1) phic phih} := by
  rw [Cad.cone]
  simp only [if_neg h1.ne']
  rw [Cad.rotateMesh_z, Cad.turnZ_revolve]
  ext v
  constructor
  · rintro ⟨q, ⟨w, w0, w1, rfl⟩, phi, h3, h4, rfl⟩
    rw [Fin.sum_univ_four] at w1
    have a0 := w0 0
    have a1 := w0 1
    have a2 := w0 2
    have a3 := w0 3
    refine ⟨w 2 + w 3, by linarith, by linarith, ?_, w 1 * r2 + w 2 * r1, phi, by positivity, ?_, h3, by linarith, ?_, ?_⟩
    · simp [Fin.sum_univ_four]; ring
    · have e : 1 - (w 2 + w 3) = w 0 + w 1 := by linarith
      rw [e]; nlinarith
    · simp [Fin.sum_univ_four]
    · simp [Fin.sum_univ_four]
  · rintro ⟨s, h3, h4, e, r, phi, h5, h6, h7, h8, e1, e2⟩
    have hpos : 0 < (1 - s) * r2 + s * r1 := by
      rcases h3.eq_or_lt with h | h
      · rw [← h]; simpa using h2
      · have : 0 ≤ (1 - s) * r2 := mul_nonneg (by linarith) h2.le
        have : 0 < s * r1 := by positivity
        linarith
    set k := r / ((1 - s) * r2 + s * r1) with hk
    have k0 : 0 ≤ k := div_nonneg h5 hpos.le
    have k1 : k ≤ 1 := (div_le_one hpos).2 h6
    have hr : r = k * ((1 - s) * r2 + s * r1) := by rw [hk]; field_simp
    refine ⟨(r, v 2), ⟨![(1 - s) * (1 - k), (1 - s) * k, s * k, s * (1 - k)], ?_, ?_, ?_⟩, phi, h7, by linarith, ?_⟩
    · intro i; fin_cases i
      · exact mul_nonneg (by linarith) (by linarith)
      · exact mul_nonneg (by linarith) k0
      · exact mul_nonneg h3 k0
      · exact mul_nonneg h3 (by linarith)
    · simp [Fin.sum_univ_four]; ring
    · rw [Fin.sum_univ_four]
      ext
      · simp; rw [hr]; ring
      · simp; rw [e]; ring
    · simp only at e1 e2
      rw [Cad.vec_eta v, e1, e2]
      simp

example : ∃ s, Cls.annulus 5 true 2 1 1 2 0 (Real.pi / 4) = .ok s :=
  ⟨_, C75_annulus 5 2 1 1 2 0 (Real.pi / 4) one_pos zero_le_one (by norm_num) (by positivity) (by linarith [Real.pi_pos])⟩

/-! ## C76: meshes that do not fill the body -/

/-- `Pyramid`: the mesh has half the documented sides, a quarter of the volume of the body whose moments
are computed. -/
theorem C76_pyramid (L : ℕ) (mass x y z : ℝ) (hx : 0 < x) (hy : 0 < y) (hz : 0 < z) :
    Cls.pyramid L true mass x y z = .ok ⟨true, L,
      some (Mom.ofFn L (uniformMoment mass (coneOver z (rectangle (2 * x) (2 * y))))), some 0, mass,
      some ⟨coneOver z (rectangle x y), decide (0 < mass)⟩⟩ ∧
    (volume (coneOver z (rectangle (2 * x) (2 * y)))).toReal = 4 * (volume (coneOver z (rectangle x y))).toReal ∧
    coneOver z (rectangle x y) ≠ coneOver z (rectangle (2 * x) (2 * y)) := by
  have hvol : (volume (coneOver z (rectangle (2 * x) (2 * y)))).toReal = 4 * (volume (coneOver z (rectangle x y))).toReal := by
    rw [cone_vol z hz _ (rectangle_compact _ _), cone_vol z hz _ (rectangle_compact _ _), area_rect _ _ (by linarith) (by linarith),
      area_rect x y hx hy]
    ring
  refine ⟨?_, hvol, ?_⟩
  · rw [Cls.pyramid]
    simp only [if_true]
    rw [Cad.pyramid_solid _ x y z hx hy, Shape.pyramid, C36_pyramid L mass x y z hx hy hz]
    rfl
  · intro h
    rw [← h, cone_vol z hz _ (rectangle_compact _ _), area_rect x y hx hy] at hvol
    have : 0 < z / 3 * (x * y) := by positivity
    linarith

theorem area_ngon (N : ℕ) (hN : 3 ≤ N) (a phic : ℝ) (ha : 0 < a) :
    (volume (regularPolygon N a phic)).toReal = N * (apo N a * a / 2) := by
  apply area_of_pm
  rw [pm_polygon hN ha]
  have h := area_tri_le (apo N a) (-(a / 2)) (a / 2) (apo_pos hN ha) (by linarith)
  rw [pm_zero, h]
  simp

/-- `NGon`: the mesh has sides of half the length (a quarter of the volume) and ignores `phic`. -/
theorem C76_ngon (L : ℕ) (mass H a phic : ℝ) (N : ℕ) (hN : 3 ≤ N) (hH : 0 < H) (ha : 0 < a) :
    Cls.ngon L true mass H a phic N = .ok ⟨true, L,
      some (Mom.ofFn L (uniformMoment mass (prism H (regularPolygon N a phic)))), some 0, mass,
      some ⟨prism H (regularPolygon N (a / 2) 0), decide (0 < mass)⟩⟩ ∧
    (volume (prism H (regularPolygon N a phic))).toReal = 4 * (volume (prism H (regularPolygon N (a / 2) 0))).toReal ∧
    prism H (regularPolygon N (a / 2) 0) ≠ prism H (regularPolygon N a phic) := by
  have hvol : (volume (prism H (regularPolygon N a phic))).toReal
      = 4 * (volume (prism H (regularPolygon N (a / 2) 0))).toReal := by
    rw [prism_vol H hH, prism_vol H hH, area_ngon N hN a phic ha, area_ngon N hN (a / 2) 0 (by positivity), apo, apo]
    ring
  refine ⟨?_, hvol, ?_⟩
  · rw [Cls.ngon]
    simp only [if_true]
    rw [Cad.ngon_solid _ H a phic N hN ha, Shape.ngon, C36_ngon_prism L mass H a phic N hN hH ha]
    rfl
  · intro h
    rw [← h, prism_vol H hH, area_ngon N hN (a / 2) 0 (by positivity)] at hvol
    have h1 := apo_pos hN (show 0 < a / 2 by positivity)
    have h2 : (0 : ℝ) < N := by exact_mod_cast (by omega : 0 < N)
    have : 0 < H * (N * (apo N (a / 2) * (a / 2) / 2)) := by positivity
    linarith

/-- `trapezoid`: documented with the height along x and the thickness along z; the mesh is lofted along
z, so that it reaches the height `h` above the xy-plane and is as thin as `t` along y. -/
theorem C76_trapezoid (p : Bool) (t w1 w2 h : ℝ) (ht : 0 < t) (hw1 : 0 < w1) (hw2 : 0 < w2) (hh : 0 < h) :
    (Cad.trapezoid p t w1 w2 h).solid = {v | 0 ≤ v 2 ∧ v 2 ≤ h ∧ |v 1| ≤ t / 2 ∧
      |v 0| * h ≤ ((h - v 2) * w1 + v 2 * w2) / 2} ∧
    ![0, 0, h] ∈ (Cad.trapezoid p t w1 w2 h).solid ∧ ∀ v ∈ (Cad.trapezoid p t w1 w2 h).solid, 0 ≤ v 2 ∧ |v 1| ≤ t / 2 := by
  have e : (Cad.trapezoid p t w1 w2 h).solid = {v | 0 ≤ v 2 ∧ v 2 ≤ h ∧ |v 1| ≤ t / 2 ∧
      |v 0| * h ≤ ((h - v 2) * w1 + v 2 * w2) / 2} := by
    ext v
    constructor
    · rintro ⟨s, h0, h1, h2, h3, h4⟩
      refine ⟨by rw [h4]; positivity, by rw [h4]; nlinarith, h3, ?_⟩
      rw [h4]
      calc |v 0| * h ≤ ((1 - s) * w1 + s * w2) / 2 * h := mul_le_mul_of_nonneg_right h2 hh.le
        _ = _ := by ring
    · rintro ⟨h0, h1, h2, h3⟩
      refine ⟨v 2 / h, by positivity, (div_le_one hh).2 h1, ?_, h2, by field_simp⟩
      have : ((1 - v 2 / h) * w1 + v 2 / h * w2) / 2 = (((h - v 2) * w1 + v 2 * w2) / 2) / h := by field_simp
      rw [this, le_div_iff₀ hh]
      exact h3
  refine ⟨e, ?_, ?_⟩
  · rw [e]
    refine ⟨hh.le, le_rfl, ?_, ?_⟩
    · simp; positivity
    · simp; positivity
  · intro v hv
    rw [e] at hv
    exact ⟨hv.1, hv.2.2.1⟩

/-- `Cylhole`: height and radius of the two cylinders are interchanged.  The mesh lacks points of the body
whose moments are computed and has points outside it. -/
theorem C76_cylhole (p : Bool) (r R : ℝ) (hr : 0 < r) (hR : r ≤ R) :
    (Cad.cylhole p r R).solid = {v | v 0 ^ 2 + v 1 ^ 2 ≤ (2 * R) ^ 2 ∧ |v 2| ≤ r / 2 ∧ v 0 ^ 2 + v 2 ^ 2 ≤ (2 * r) ^ 2 ∧
      |v 1| ≤ R / 2} ∧
    ¬ steinmetz r R ⊆ (Cad.cylhole p r R).solid ∧ ¬ (Cad.cylhole p r R).solid ⊆ steinmetz r R := by
  have e : (Cad.cylhole p r R).solid = {v | v 0 ^ 2 + v 1 ^ 2 ≤ (2 * R) ^ 2 ∧ |v 2| ≤ r / 2 ∧
      v 0 ^ 2 + v 2 ^ 2 ≤ (2 * r) ^ 2 ∧ |v 1| ≤ R / 2} := by
    ext v
    simp only [Cad.cylhole, Cad.cylinder, Cad.cyl, Cad.quarterX, Set.mem_inter_iff, Set.mem_setOf_eq]
    constructor
    · rintro ⟨⟨h1, h2⟩, u, ⟨h3, h4⟩, rfl⟩
      refine ⟨h1, h2, ?_, ?_⟩
      · simpa using h3
      · simpa using h4
    · rintro ⟨h1, h2, h3, h4⟩
      refine ⟨⟨h1, h2⟩, ![v 0, v 2, -v 1], ⟨by simpa using h3, by simpa using h4⟩, ?_⟩
      ext i; fin_cases i <;> simp
  refine ⟨e, ?_, ?_⟩
  · intro h
    have hm : (![0, 0, R] : V3) ∈ steinmetz r R := ⟨by simp; positivity, by simp⟩
    have := h hm
    rw [e] at this
    have h2 := this.2.1
    simp only [Matrix.cons_val] at h2
    rw [abs_of_pos (by linarith)] at h2
    linarith
  · intro h
    have hm : (![2 * r, 0, 0] : V3) ∈ (Cad.cylhole p r R).solid := by
      rw [e]
      refine ⟨?_, ?_, ?_, ?_⟩
      · simp; gcongr
      · simp; positivity
      · simp
      · simp; linarith
    have h1 := (h hm).1
    simp at h1
    nlinarith

/-! ### The hole in a plate -/

theorem turnY_mem (th : ℝ) (S : Set V3) (v : V3) : v ∈ turnY th '' S ↔
    (![v 0 * Real.cos th - v 2 * Real.sin th, v 1, v 2 * Real.cos th + v 0 * Real.sin th] : V3) ∈ S := by
  have hcs := Real.sin_sq_add_cos_sq th
  constructor
  · rintro ⟨u, hu, rfl⟩
    convert hu using 1
    ext i; fin_cases i
    · simp [turnY]; linear_combination (u 0) * hcs
    · simp [turnY]
    · simp [turnY]; linear_combination (u 2) * hcs
  · intro h
    refine ⟨_, h, ?_⟩
    ext i; fin_cases i
    · simp [turnY]; linear_combination (v 0) * hcs
    · simp [turnY]
    · simp [turnY]; linear_combination (v 2) * hcs

/-- The body turned so that the plate is horizontal. -/
theorem plate_turned (t r th : ℝ) : turnY th '' platehole t r th
    = {v | (v 0 * Real.cos th - v 2 * Real.sin th) ^ 2 + v 1 ^ 2 ≤ r ^ 2 ∧ |v 2| ≤ t / 2} := by
  have hcs := Real.sin_sq_add_cos_sq th
  ext v
  rw [turnY_mem]
  simp only [platehole, Set.mem_setOf_eq, Matrix.cons_val]
  rw [show (v 2 * Real.cos th + v 0 * Real.sin th) * Real.cos th - (v 0 * Real.cos th - v 2 * Real.sin th) * Real.sin th
    = v 2 by linear_combination (v 2) * hcs]

theorem platehole_solid (p : Bool) (t r th : ℝ) : (Cad.platehole p t r th).solid
    = turnY th '' platehole t r th ∩ {v | |v 0| ≤ r + t * Real.sin th ∧ |v 1| ≤ r + t * Real.sin th ∧
      |v 2 * Real.cos th + v 0 * Real.sin th| ≤ t} := by
  rw [plate_turned, Cad.platehole]
  simp only
  rw [Cad.rectPrism, Cad.rotateMesh_z, Cad.turnZ_zero, Set.image_id, Cad.cylinder, Cad.rotateMesh_y]
  ext v
  simp only [Set.mem_inter_iff, turnY_mem, Cad.cyl, Cad.box, Set.mem_setOf_eq, Matrix.cons_val]
  rw [show (2 * r + 2 * t * Real.sin th) / 2 = r + t * Real.sin th by ring, show 2 * t / 2 = t by ring]
  tauto

/-- `Platehole`: the mesh is drilled the other way round than the body whose moments are computed (the
plate is horizontal and the hole tilted): it lies in that body turned by `theta` about y. -/
theorem C76_platehole_subset (p : Bool) (t r th : ℝ) : (Cad.platehole p t r th).solid ⊆ turnY th '' platehole t r th := by
  rw [platehole_solid]; exact Set.inter_subset_left

theorem abs_sin_le_tan (th : ℝ) (h1 : -(Real.pi / 2) < th) (h2 : th < Real.pi / 2) : 0 < Real.cos th :=
  Real.cos_pos_of_mem_Ioo ⟨h1, h2⟩

/-- It is the whole turned body exactly when the plate cut out by `genCAD` is large enough and the drill
long enough. -/
theorem C76_platehole_iff (p : Bool) (t r th : ℝ) (ht : 0 < t) (hr : 0 < r) (h1 : -(Real.pi / 2) < th) (h2 : th < Real.pi / 2) :
    (Cad.platehole p t r th).solid = turnY th '' platehole t r th ↔
      0 ≤ Real.sin th ∧ r / Real.cos th + t / 2 * Real.tan th ≤ r + t * Real.sin th ∧
        (t / 2 + r * Real.sin th) / Real.cos th ≤ t := by
  have hc := abs_sin_le_tan th h1 h2
  have hcs := Real.sin_sq_add_cos_sq th
  rw [platehole_solid, Set.inter_eq_left, plate_turned]
  constructor
  · intro h
    have hs : 0 ≤ Real.sin th := by
      have hm : (![0, r, 0] : V3) ∈ {v : V3 | (v 0 * Real.cos th - v 2 * Real.sin th) ^ 2 + v 1 ^ 2 ≤ r ^ 2 ∧ |v 2| ≤ t / 2} := by
        refine ⟨by simp, by simp; positivity⟩
      have := (h hm).2.1
      simp only [Matrix.cons_val_one, Matrix.cons_val_zero] at this
      rw [abs_of_pos hr] at this
      by_contra hneg
      push Not at hneg
      nlinarith
    have hm : (![(r + t / 2 * Real.sin th) / Real.cos th, 0, t / 2] : V3)
        ∈ {v : V3 | (v 0 * Real.cos th - v 2 * Real.sin th) ^ 2 + v 1 ^ 2 ≤ r ^ 2 ∧ |v 2| ≤ t / 2} := by
      refine ⟨?_, ?_⟩
      · simp only [Matrix.cons_val_zero, Matrix.cons_val_one, Matrix.cons_val]
        rw [div_mul_cancel₀ _ hc.ne']
        apply le_of_eq; ring
      · simp only [Matrix.cons_val]
        rw [abs_of_pos (by positivity)]
    obtain ⟨g1, _, g3⟩ := h hm
    simp only [Matrix.cons_val_zero, Matrix.cons_val] at g1 g3
    refine ⟨hs, ?_, ?_⟩
    · have := (abs_le.1 g1).2
      rw [Real.tan_eq_sin_div_cos]
      calc _ = (r + t / 2 * Real.sin th) / Real.cos th := by field_simp
        _ ≤ _ := this
    · have := (abs_le.1 g3).2
      refine le_trans (le_of_eq ?_) this
      field_simp
      linear_combination (-t) * hcs
  · rintro ⟨hs, g1, g2⟩ v ⟨e1, e2⟩
    have hu : |v 0 * Real.cos th - v 2 * Real.sin th| ≤ r := by
      apply abs_le_of_sq_le_sq _ hr.le
      nlinarith [sq_nonneg (v 1)]
    have hy : |v 1| ≤ r := by
      apply abs_le_of_sq_le_sq _ hr.le
      nlinarith [sq_nonneg (v 0 * Real.cos th - v 2 * Real.sin th)]
    rw [abs_le] at hu e2
    have hb1 : r / Real.cos th + t / 2 * Real.tan th = (r + t / 2 * Real.sin th) / Real.cos th := by
      rw [Real.tan_eq_sin_div_cos]; field_simp
    rw [hb1, div_le_iff₀ hc] at g1
    rw [div_le_iff₀ hc] at g2
    have z1 : v 2 * Real.sin th ≤ t / 2 * Real.sin th := mul_le_mul_of_nonneg_right e2.2 hs
    have z2 : -(t / 2 * Real.sin th) ≤ v 2 * Real.sin th := by
      have := mul_le_mul_of_nonneg_right e2.1 hs
      linarith
    have x1 : v 0 * Real.cos th ≤ r + t / 2 * Real.sin th := by linarith
    have x2 : -(r + t / 2 * Real.sin th) ≤ v 0 * Real.cos th := by linarith
    refine ⟨?_, ?_, ?_⟩
    · rw [abs_le]
      constructor
      · by_contra hneg
        push Not at hneg
        nlinarith
      · by_contra hneg
        push Not at hneg
        nlinarith
    · have : 0 ≤ t * Real.sin th := by positivity
      linarith
    · have key : (v 2 * Real.cos th + v 0 * Real.sin th) * Real.cos th
          = v 2 + (v 0 * Real.cos th - v 2 * Real.sin th) * Real.sin th := by linear_combination (v 2) * hcs
      have y1 : (v 0 * Real.cos th - v 2 * Real.sin th) * Real.sin th ≤ r * Real.sin th := mul_le_mul_of_nonneg_right hu.2 hs
      have y2 : -r * Real.sin th ≤ (v 0 * Real.cos th - v 2 * Real.sin th) * Real.sin th := mul_le_mul_of_nonneg_right hu.1 hs
      rw [abs_le]
      constructor
      · by_contra hneg
        push Not at hneg
        nlinarith
      · by_contra hneg
        push Not at hneg
        nlinarith

/-- A hole tilted to the negative side, or by 60 degrees or more, is always cut short. -/
theorem C76_platehole_short (p : Bool) (t r th : ℝ) (ht : 0 < t) (hr : 0 < r) (h1 : -(Real.pi / 2) < th) (h2 : th < Real.pi / 2)
    (h : th < 0 ∨ Real.pi / 3 ≤ th) : (Cad.platehole p t r th).solid ≠ turnY th '' platehole t r th := by
  intro he
  obtain ⟨g1, -, g3⟩ := (C76_platehole_iff p t r th ht hr h1 h2).1 he
  have hc := abs_sin_le_tan th h1 h2
  have hpi := Real.pi_pos
  rcases h with h | h
  · have := Real.sin_neg_of_neg_of_neg_pi_lt h (by linarith)
    linarith
  · have hc2 : Real.cos th ≤ 1 / 2 := by
      rw [← Real.cos_pi_div_three]
      exact Real.cos_le_cos_of_nonneg_of_le_pi (by positivity) (by linarith) h
    have hs : 0 < Real.sin th := Real.sin_pos_of_pos_of_lt_pi (by linarith) (by linarith)
    rw [div_le_iff₀ hc] at g3
    nlinarith [mul_pos hr hs]

/-- And with any tilt it is not the body itself. -/
theorem C76_platehole_orientation (p : Bool) (t r th : ℝ) (ht : 0 < t) (hr : 0 < r) (h1 : -(Real.pi / 2) < th)
    (h2 : th < Real.pi / 2) (h0 : th ≠ 0) : ¬ platehole t r th ⊆ (Cad.platehole p t r th).solid := by
  intro h
  have hc := abs_sin_le_tan th h1 h2
  have hpi := Real.pi_pos
  have hc1 : Real.cos th < 1 := by
    rw [← Real.cos_zero]
    rw [← Real.cos_abs th]
    exact Real.cos_lt_cos_of_nonneg_of_le_pi le_rfl (by rw [abs_le]; constructor <;> linarith) (abs_pos.2 h0)
  have key : ∀ x : ℝ, x ^ 2 = r ^ 2 → 0 < x * Real.sin th → False := by
    intro x hx hxs
    have hm : (![x, 0, (t / 2 + x * Real.sin th) / Real.cos th] : V3) ∈ platehole t r th := by
      refine ⟨by simp [hx], ?_⟩
      simp only [Matrix.cons_val_zero, Matrix.cons_val]
      rw [div_mul_cancel₀ _ hc.ne', add_sub_cancel_right, abs_of_pos (by positivity)]
    have hz := C76_platehole_subset p t r th (h hm)
    rw [plate_turned] at hz
    have := (abs_le.1 hz.2).2
    simp only [Matrix.cons_val] at this
    rw [div_le_iff₀ hc] at this
    nlinarith
  rcases lt_or_gt_of_ne h0 with h | h
  · have hs := Real.sin_neg_of_neg_of_neg_pi_lt h (by linarith)
    exact key (-r) (by ring) (by nlinarith)
  · have hs := Real.sin_pos_of_pos_of_lt_pi h (by linarith)
    exact key r rfl (by positivity)

example : (Cad.platehole true 1 1 0).solid = turnY 0 '' platehole 1 1 0 :=
  (C76_platehole_iff true 1 1 0 one_pos one_pos (by linarith [Real.pi_pos]) (by linarith [Real.pi_pos])).2 (by norm_num)

end Newt
