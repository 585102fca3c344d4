import Verif.Props.Shapes
import Verif.Props.OuterRot

/-!
# C38 (constructors), C39 (failing calls), C57 (mesh), C58 (outer rotation)
-/

namespace Newt

open Spec MeasureTheory

/-! ## C38: what the constructors put into the books -/

/-- A routine of `qlm.py` that computes the moments of the solid `S`. -/
def Computes (mk : (L : ℕ) → ℝ → Qlm.Res L) (S : Set V3) : Prop :=
  (∀ L mass, mk L mass = .ok (Mom.ofFn L (uniformMoment mass S))) ∧
    ∀ q : Mom 0, mk 0 1 = .ok q → q.get 0 0 = ((1 / Real.sqrt (4 * Real.pi) : ℝ) : ℂ)

theorem Computes.vol {mk : (L : ℕ) → ℝ → Qlm.Res L} {S : Set V3} (h : Computes mk S) : (volume S).toReal ≠ 0 := by
  apply vol_of_monopole
  have := h.2 _ (h.1 0 1)
  rw [Mom.get_ofFn _ le_rfl (by simp)] at this
  rw [this]
  have : Real.sqrt (4 * Real.pi) ≠ 0 := (Real.sqrt_pos.2 (by positivity)).ne'
  exact_mod_cast one_div_ne_zero this

/-- Mass and moments are always right. -/
theorem computes_moments {mk : (L : ℕ) → ℝ → Qlm.Res L} {S : Set V3} (h : Computes mk S) (hS : IsCompact S)
    (L : ℕ) (mass : ℝ) (mesh : Mesh) :
    Shape.ofRes L mass mesh (mk L mass) =
      some ⟨true, L, some (Mom.ofFn L (Body.solid mass S hS).inner), some 0, mass, some mesh⟩ ∧
    (Body.solid mass S hS).mass = mass := by
  refine ⟨?_, Body.mass_solid mass S hS h.vol⟩
  rw [h.1 L mass, Shape.ofRes]
  have : Mom.ofFn L (uniformMoment mass S) = Mom.ofFn L (Body.solid mass S hS).inner := by
    apply Mom.ext_get
    intro l m hl hm
    rw [Mom.get_ofFn _ hl hm, Mom.get_ofFn _ hl hm, Body.inner_solid]
  rw [this]

/-- The object made by a constructor keeps the books of its solid iff the solid is centred. -/
theorem computes_books_iff {mk : (L : ℕ) → ℝ → Qlm.Res L} {S : Set V3} (h : Computes mk S) (hS : IsCompact S)
    (L : ℕ) (mass : ℝ) (mesh : Mesh) :
    (∃ s, Shape.ofRes L mass mesh (mk L mass) = some s ∧ Books L s (Body.solid mass S hS)) ↔
      ∀ i, (Body.solid mass S hS).first i = 0 := by
  obtain ⟨e1, e2⟩ := computes_moments h hS L mass mesh
  rw [e1]
  constructor
  · rintro ⟨s, hs, hb⟩ i
    rw [Option.some.injEq] at hs
    subst hs
    rw [← hb.com 0 rfl i]; simp
  · intro h0
    refine ⟨_, rfl, e2.symm, ?_, le_rfl, ?_⟩
    · intro c hc i
      simp only [Option.some.injEq] at hc
      subst hc
      rw [h0]; simp
    · intro _
      refine ⟨_, rfl, Body.inner_valid L _, fun l m hl hm => ?_⟩
      rw [Mom.get_ofFn _ hl (by omega)]

theorem computes_rect (H a b phic : ℝ) (hH : 0 < H) (ha : 0 < a) (hb : 0 < b) :
    Computes (fun L mass => Qlm.rectPrism L mass H a b phic) (prism H (rotated phic (rectangle a b))) :=
  ⟨fun L mass => C36_rect_prism L mass H a b phic hH ha hb, fun q hq => C35_rect_prism 0 1 H a b phic q hq⟩

theorem computes_ngon (H a phic : ℝ) (N : ℕ) (hN : 3 ≤ N) (hH : 0 < H) (ha : 0 < a) :
    Computes (fun L mass => Qlm.ngonPrism L mass H a phic N) (prism H (regularPolygon N a phic)) :=
  ⟨fun L mass => C36_ngon_prism L mass H a phic N hN hH ha,
    fun q hq => by simpa using C35_ngon_prism 0 1 H a phic N q hq⟩

theorem computes_annulus (H Ri Ro phic phih : ℝ) (hH : 0 < H) (hRi : 0 ≤ Ri) (hR : Ri < Ro) (h0 : 0 < phih)
    (hpi : phih ≤ Real.pi) :
    Computes (fun L mass => Qlm.annulus L mass H Ri Ro phic phih) (prism H (sector Ri Ro phic phih)) :=
  ⟨fun L mass => C36_annulus L mass H Ri Ro phic phih hH hRi hR h0 hpi,
    fun q hq => C35_annulus 0 1 H Ri Ro phic phih q hq⟩

theorem computes_cone (P R phic phih : ℝ) (hP : 0 < P) (hR : 0 < R) (h0 : 0 < phih) (hpi : phih ≤ Real.pi) :
    Computes (fun L mass => Qlm.cone L mass P R phic phih) (coneOver P (sector 0 R phic phih)) :=
  ⟨fun L mass => C36_cone L mass P R phic phih hP hR h0 hpi, fun q hq => C35_cone 0 1 P R phic phih q hq⟩

theorem computes_tri (H d y1 y2 : ℝ) (hH : 0 < H) (hd : d ≠ 0) (hy : y1 ≠ y2) :
    Computes (fun L mass => Qlm.triPrism L mass H d y1 y2) (prism H (triangle (d, y1) (d, y2))) :=
  ⟨fun L mass => C36_tri_prism L mass H d y1 y2 hH hd hy, fun q hq => C35_tri_prism 0 1 H d y1 y2 q hq⟩

theorem computes_tet (x y1 y2 z : ℝ) (hx : 0 < x) (hy : y1 ≠ y2) (hz : 0 < z) :
    Computes (fun L mass => Qlm.tetrahedron2 L mass x y1 y2 z) (coneOver z (triangle (x, y1) (x, y2))) :=
  ⟨fun L mass => C36_tetrahedron2 L mass x y1 y2 z hx hy hz, fun q hq => C35_tetrahedron2 0 1 x y1 y2 z q hq⟩

theorem computes_pyramid (x y z : ℝ) (hx : 0 < x) (hy : 0 < y) (hz : 0 < z) :
    Computes (fun L mass => Qlm.pyramid L mass x y z) (coneOver z (rectangle (2 * x) (2 * y))) :=
  ⟨fun L mass => C36_pyramid L mass x y z hx hy hz, fun q hq => C35_pyramid 0 1 x y z q hq⟩

/-- C38: a new `RectPrism` keeps the books of its solid. -/
theorem C38_rect_prism (L : ℕ) (mass H a b phic : ℝ) (mesh : Mesh) (hH : 0 < H) (ha : 0 < a) (hb : 0 < b) :
    ∃ s, Shape.rectPrism L mass H a b phic mesh = some s ∧
      Books L s (Body.solid mass (prism H (rotated phic (rectangle a b)))
        (prism_compact H _ (rotated_compact _ _ (rectangle_compact a b)))) := by
  refine (computes_books_iff (computes_rect H a b phic hH ha hb) _ L mass mesh).2 ?_
  rw [Body.first_zero_iff, Body.inner_solid, Body.inner_solid]
  have h := (C37_rect_prism 1 mass H a b phic _ (C36_rect_prism 1 mass H a b phic hH ha hb)).2
  have h0 := h 1 0 le_rfl (by simp) (by simp)
  have h1 := h 1 1 le_rfl (by simp) (by simp)
  rw [Mom.get_ofFn _ le_rfl (by simp)] at h0 h1
  exact ⟨h0, h1⟩

/-- C38: a new `NGon` keeps the books of its solid. -/
theorem C38_ngon (L : ℕ) (mass H a phic : ℝ) (N : ℕ) (mesh : Mesh) (hN : 3 ≤ N) (hH : 0 < H) (ha : 0 < a) :
    ∃ s, Shape.ngon L mass H a phic N mesh = some s ∧
      Books L s (Body.solid mass (prism H (regularPolygon N a phic))
        (prism_compact H _ (polygon_rotated a phic ▸ rotated_compact _ _ (polygon_compact hN ha)))) := by
  refine (computes_books_iff (computes_ngon H a phic N hN hH ha) _ L mass mesh).2 ?_
  rw [Body.first_zero_iff, Body.inner_solid, Body.inner_solid]
  have h := (C37_ngon_prism 1 mass H a phic N _ (C36_ngon_prism 1 mass H a phic N hN hH ha)).2
  have h0 := h 1 0 le_rfl (by simp) (by simp)
  have h1 := h 1 1 le_rfl (by simp) (.inr (by
    intro hd
    have := Int.le_of_dvd one_pos hd
    omega))
  rw [Mom.get_ofFn _ le_rfl (by simp)] at h0 h1
  exact ⟨h0, h1⟩

/-- C38: a new `Sphere` keeps the books of the ball about its centre. -/
theorem C38_sphere (L : ℕ) (mass R : ℝ) (center : V3) (mesh : Mesh) (hR : 0 < R) :
    Books L (Shape.sphere L mass R center mesh) ((Body.solid mass (ball R) (ball_compact R)).translate center) := by
  refine books_translate (s := ⟨true, L, some (Qlm.sphere L mass R), some 0, mass, some mesh⟩) ?_ center true _ rfl
  have hv := (ball_vol R hR).ne'
  refine ⟨(Body.mass_solid mass _ _ hv).symm, ?_, le_rfl, ?_⟩
  · intro c hc i
    simp only [Option.some.injEq] at hc
    subst hc
    have : ∀ i, (Body.solid mass (ball R) (ball_compact R)).first i = 0 := by
      rw [Body.first_zero_iff, Body.inner_solid, Body.inner_solid]
      have h := (C37_sphere 1 mass R).2
      rw [C36_sphere 1 mass R hR] at h
      have h0 := h 1 0 le_rfl (by simp) (by simp)
      have h1 := h 1 1 le_rfl (by simp) (by simp)
      rw [Mom.get_ofFn _ le_rfl (by simp)] at h0 h1
      exact ⟨h0, h1⟩
    rw [this]; simp
  · intro _
    refine ⟨_, rfl, (C37_sphere L mass R).1, fun l m hl hm => ?_⟩
    change (Qlm.sphere L mass R).get l m = _
    rw [C36_sphere L mass R hR, Mom.get_ofFn _ hl (by omega), Body.inner_solid]

/-- C38: a new `Annulus` keeps the books of its solid iff it is a full ring (or massless): for a
sector the centre of mass stays at the origin. -/
theorem C38_annulus_iff (L : ℕ) (mass H Ri Ro phic phih : ℝ) (mesh : Mesh) (hH : 0 < H) (hRi : 0 ≤ Ri)
    (hR : Ri < Ro) (h0 : 0 < phih) (hpi : phih ≤ Real.pi) :
    (∃ s, Shape.annulus L mass H Ri Ro phic phih mesh = some s ∧
      Books L s (Body.solid mass (prism H (sector Ri Ro phic phih))
        (prism_compact H _ (sector_compact _ _ _ _)))) ↔ phih = Real.pi ∨ mass = 0 := by
  rw [Shape.annulus, computes_books_iff (computes_annulus H Ri Ro phic phih hH hRi hR h0 hpi),
    Body.first_zero_iff, Body.inner_solid, Body.inner_solid]
  have e0 := annulus_cell mass H Ri Ro phic phih hH hRi hR h0 hpi 1 0 (by simp)
  have e1 := annulus_cell mass H Ri Ro phic phih hH hRi hR h0 hpi 1 1 le_rfl
  rw [Nat.cast_zero] at e0
  rw [Nat.cast_one] at e1
  rw [← e0, ← e1]
  have hz : Qlm.annulusCell mass H Ri Ro phic phih 1 0 = 0 := by simp [Qlm.annulusCell]
  rw [hz, zero_div]
  have hne : ((Ro ^ 2 - Ri ^ 2 : ℝ) : ℂ) ≠ 0 := by
    have : Ro ^ 2 - Ri ^ 2 ≠ 0 := by nlinarith
    exact_mod_cast this
  rw [div_eq_zero_iff, or_iff_left hne, and_iff_right rfl, Qlm.annulusCell, if_pos (by norm_num)]
  have hcube : (Ro : ℂ) ^ 3 - (Ri : ℂ) ^ 3 ≠ 0 := by
    have h1 : Ri ^ 3 < Ro ^ 3 := pow_lt_pow_left₀ hR hRi (by norm_num)
    have h2 : Ro ^ 3 - Ri ^ 3 ≠ 0 := by linarith
    exact_mod_cast h2
  have hlm : Qlm.lmfac 1 1 ≠ 0 := by rw [Qlm.lmfac]; exact (Real.sqrt_pos.2 (Real.exp_pos _)).ne'
  have hg : Qlm.gam3 1 1 0 ≠ 0 := by rw [gam3_eq 1 1 0 le_rfl]; simp
  have hph : Qlm.phase 1 phic ≠ 0 := Complex.exp_ne_zero _
  have hfac : Qlm.factor mass = 0 ↔ mass = 0 := by
    rw [Qlm.factor, mul_eq_zero, or_iff_left (Real.sqrt_pos.2 (by positivity)).ne']
  have hs3 : Real.sqrt (2 * ((1 : ℕ) : ℝ) + 1) ≠ 0 := (Real.sqrt_pos.2 (by norm_num)).ne'
  have hsinc : Qlm.sinc (((1 : ℕ) : ℝ) * phih) = 0 ↔ phih = Real.pi := by
    rw [Nat.cast_one, one_mul, Qlm.sinc, if_neg h0.ne', div_eq_zero_iff, or_iff_left h0.ne']
    constructor
    · intro hs
      by_contra hcon
      exact (Real.sin_pos_of_pos_of_lt_pi h0 (lt_of_le_of_ne hpi hcon)).ne' hs
    · rintro rfl; exact Real.sin_pi
  rw [mul_eq_zero, mul_eq_zero, mul_eq_zero, Complex.ofReal_eq_zero, Complex.ofReal_eq_zero, hsinc,
    or_iff_left hph, mul_eq_zero, or_iff_left hlm, mul_eq_zero, or_iff_left hs3, hfac, or_iff_right]
  · exact or_comm
  · simp [hg, hcube]; norm_num

/-- C38: for the solids that are not centred the mass and the moments of a new object are right but
the centre of mass is not: it stays at the origin although the first moment of the solid is not
zero. -/
theorem C38_cone_com_wrong (L : ℕ) (mass P R phic phih : ℝ) (mesh : Mesh) (hm : mass ≠ 0) (hP : 0 < P)
    (hR : 0 < R) (h0 : 0 < phih) (hpi : phih ≤ Real.pi) :
    let b := Body.solid mass (coneOver P (sector 0 R phic phih)) (coneOver_compactV P _ (sector_compact _ _ _ _))
    Shape.cone L mass P R phic phih mesh =
      some ⟨true, L, some (Mom.ofFn L b.inner), some 0, mass, some mesh⟩ ∧ b.mass = mass ∧ b.first 2 ≠ 0 := by
  have h := computes_cone P R phic phih hP hR h0 hpi
  obtain ⟨e1, e2⟩ := computes_moments h (coneOver_compactV P _ (sector_compact _ _ _ _)) L mass mesh
  refine ⟨e1, e2, solid_first_ne mass 1 2 _ hm one_ne_zero _ h.vol ?_⟩
  rintro v ⟨s, h0, h1, b, _, _, _, e⟩
  rw [e, one_mul]; exact mul_nonneg (by linarith) hP.le

theorem C38_tetrahedron_com_wrong (L : ℕ) (mass x y1 y2 z : ℝ) (mesh : Mesh) (hm : mass ≠ 0) (hx : 0 < x)
    (hy : y1 ≠ y2) (hz : 0 < z) :
    let b := Body.solid mass (coneOver z (triangle (x, y1) (x, y2))) (coneOver_compactV z _ (triangle_compact _ _))
    Shape.tetrahedron L mass x y1 y2 z mesh =
      some ⟨true, L, some (Mom.ofFn L b.inner), some 0, mass, some mesh⟩ ∧ b.mass = mass ∧ b.first 2 ≠ 0 := by
  have h := computes_tet x y1 y2 z hx hy hz
  obtain ⟨e1, e2⟩ := computes_moments h (coneOver_compactV z _ (triangle_compact _ _)) L mass mesh
  refine ⟨e1, e2, solid_first_ne mass 1 2 _ hm one_ne_zero _ h.vol ?_⟩
  rintro v ⟨s, h0, h1, b, _, _, _, e⟩
  rw [e, one_mul]; exact mul_nonneg (by linarith) hz.le

theorem C38_pyramid_com_wrong (L : ℕ) (mass x y z : ℝ) (mesh : Mesh) (hm : mass ≠ 0) (hx : 0 < x)
    (hy : 0 < y) (hz : 0 < z) :
    let b := Body.solid mass (coneOver z (rectangle (2 * x) (2 * y))) (coneOver_compactV z _ (rectangle_compact _ _))
    Shape.pyramid L mass x y z mesh =
      some ⟨true, L, some (Mom.ofFn L b.inner), some 0, mass, some mesh⟩ ∧ b.mass = mass ∧ b.first 2 ≠ 0 := by
  have h := computes_pyramid x y z hx hy hz
  obtain ⟨e1, e2⟩ := computes_moments h (coneOver_compactV z _ (rectangle_compact _ _)) L mass mesh
  refine ⟨e1, e2, solid_first_ne mass 1 2 _ hm one_ne_zero _ h.vol ?_⟩
  rintro v ⟨s, h0, h1, b, _, _, _, e⟩
  rw [e, one_mul]; exact mul_nonneg (by linarith) hz.le

theorem C38_tri_prism_com_wrong (L : ℕ) (mass H d y1 y2 : ℝ) (mesh : Mesh) (hm : mass ≠ 0) (hH : 0 < H)
    (hd : d ≠ 0) (hy : y1 ≠ y2) :
    let b := Body.solid mass (prism H (triangle (d, y1) (d, y2))) (prism_compact H _ (triangle_compact _ _))
    Shape.triPrism L mass H d y1 y2 mesh =
      some ⟨true, L, some (Mom.ofFn L b.inner), some 0, mass, some mesh⟩ ∧ b.mass = mass ∧ b.first 0 ≠ 0 := by
  have h := computes_tri H d y1 y2 hH hd hy
  obtain ⟨e1, e2⟩ := computes_moments h (prism_compact H _ (triangle_compact _ _)) L mass mesh
  refine ⟨e1, e2, solid_first_ne mass d 0 _ hm hd _ h.vol ?_⟩
  rintro v ⟨_, _, s, t, hs, ht, _, e, _⟩
  simp only at e
  rw [e]
  have : d * (s * d + t * d) = (s + t) * (d * d) := by ring
  rw [this]
  exact mul_nonneg (by linarith) (mul_self_nonneg d)

/-- C38: with total mass zero (say a body and a hole of equal mass) the centre of mass is lost. -/
theorem C38_add_massless (s t : Shape) (hi : s.inner = t.inner) (hm : s.mass + t.mass = 0) :
    (s.add [t]).1.com = none ∧ (s.add [t]).1.mass = 0 := by
  have hin : (∀ u ∈ [s, t], u.inner = true) ∨ (∀ u ∈ [s, t], u.inner = false) := by
    cases h : t.inner <;> rw [h] at hi
    · right; simp [h, hi]
    · left; simp [h, hi]
  rw [Shape.add]
  simp only [if_pos hin]
  have hz : ([s, t].map Shape.mass).sum = 0 := by simpa using hm
  have hb : ∀ o : Option (List V3), (o.bind fun cs => if ([s, t].map Shape.mass).sum = 0 then none else
      some (fun i => (cs.sum : V3) i / ([s, t].map Shape.mass).sum)) = none := by
    intro o; rw [hz]; cases o <;> simp
  rcases hmm : [s, t].mapM Shape.mesh with _ | ms
  · exact ⟨hb _, hz⟩
  · cases ms with
    | nil => exact ⟨hb _, hz⟩
    | cons m ms => exact ⟨hb _, hz⟩

theorem add_form (s : Shape) (ts : List Shape)
    (hin : (∀ t ∈ s :: ts, t.inner = true) ∨ (∀ t ∈ s :: ts, t.inner = false)) :
    ∃ com mesh e, s.add ts = (⟨s.inner, Shape.maxL s ts,
      ((s :: ts).mapM fun t : Shape => t.qlm.map fun q => embed_qlm q (Shape.maxL s ts)).map Shape.sumMom,
      com, ((s :: ts).map Shape.mass).sum, mesh⟩, e) := by
  rw [Shape.add]
  simp only [if_pos hin]
  rcases hmm : (s :: ts).mapM Shape.mesh with _ | ms
  · exact ⟨_, _, _, rfl⟩
  · cases ms <;> exact ⟨_, _, _, rfl⟩

/-- C38: adding objects of different degree pads the shorter array with zeros: above the smaller
degree the sum has the moments of the one object only. -/
theorem C38_add_pads (s t : Shape) (q : Mom s.lmax) (r : Mom t.lmax) (hs : s.inner = true) (ht : t.inner = true)
    (hq : s.qlm = some q) (hr : t.qlm = some r) (hl : s.lmax < t.lmax) :
    ∃ (p : Mom t.lmax) (com : Option V3) (mesh : Option Mesh) (e : Option ShapeErr),
      s.add [t] = (⟨true, t.lmax, some p, com, s.mass + t.mass, mesh⟩, e) ∧
      ∀ (l : ℕ) (m : ℤ), l ≤ t.lmax → m.natAbs ≤ t.lmax →
        p.get l m = (if l ≤ s.lmax ∧ m.natAbs ≤ s.lmax then q.get l m else 0) + r.get l m := by
  have hin : (∀ u ∈ [s, t], u.inner = true) ∨ (∀ u ∈ [s, t], u.inner = false) := by
    left; simp [hs, ht]
  obtain ⟨com, mesh, e, h⟩ := add_form s [t] hin
  have hmax : Shape.maxL s [t] = t.lmax := by simp [Shape.maxL]; omega
  rw [hmax] at h
  refine ⟨Shape.sumMom [embed_qlm q t.lmax, embed_qlm r t.lmax], com, mesh, e, ?_, ?_⟩
  · rw [h, hs]; simp [hq, hr]
  · intro l m h1 h2
    rw [Shape.sumMom, Mom.get_ofFn _ h1 h2]
    simp only [List.map_cons, List.map_nil, List.sum_cons, List.sum_nil, add_zero]
    rw [embed_get _ _ _ _ h1 h2, embed_get _ _ _ _ h1 h2]
    congr 1
    split_ifs with hc
    · rfl
    · exact Mom.get_out q hc

/-! ## C39: failing calls leave half-updated objects -/

/-- C39: translating outer moments to inner moments raises `ValueError`, but the object has already
been changed: the centre of mass and the mesh are moved, the moments are not. -/
theorem C39_outer_to_inner (s : Shape) (m : Mesh) (d : V3) (hi : s.inner = false) (hm : s.mesh = some m) :
    s.translate d true =
      ({ s with com := s.com.map (fun c => c + d), mesh := some (Shape.translateMesh m d) },
        some .valueError) := by
  rw [Shape.translate, hm]
  simp [hi]

/-- C39: hence the failed call is visible: the centre of mass of the object is no longer the one it
had, unless the vector is zero. -/
theorem C39_not_atomic (s : Shape) (m : Mesh) (c d : V3) (hi : s.inner = false) (hm : s.mesh = some m)
    (hc : s.com = some c) (hd : d ≠ 0) :
    (s.translate d true).2 = some .valueError ∧ (s.translate d true).1.com ≠ s.com ∧
      HEq (s.translate d true).1.qlm s.qlm := by
  rw [C39_outer_to_inner s m d hi hm]
  refine ⟨rfl, ?_, HEq.rfl⟩
  simp [hc, hd]

/-- C39: the only way `translate` with a mesh fails is outer to inner. -/
theorem C39_translate_fails_iff (s : Shape) (m : Mesh) (d : V3) (t : Bool) (hm : s.mesh = some m) :
    (s.translate d t).2 ≠ none ↔ s.inner = false ∧ t = true := by
  rw [Shape.translate, hm]
  cases s.inner <;> cases t <;> simp

/-- C39: a plain `Shape` (no mesh) cannot be translated or rotated; the failed translation has
moved the centre of mass, the failed rotation has turned the moments. -/
theorem C39_no_mesh (s : Shape) (d : V3) (t : Bool) (a b g : ℝ) (hm : s.mesh = none) :
    s.translate d t = ({ s with com := s.com.map (fun c => c + d) }, some .attributeError) ∧
    s.rotate a b g = ({ s with qlm := s.qlm.bind fun q => rotate_qlm q a b g }, some .attributeError) := by
  rw [Shape.translate, Shape.rotate, hm]
  exact ⟨rfl, rfl⟩

/-- C39: combining inner and outer objects is refused and changes nothing. -/
theorem C39_add_mixed (s : Shape) (ts : List Shape) (t u : Shape) (ht : t ∈ s :: ts) (hu : u ∈ s :: ts)
    (h1 : t.inner = true) (h2 : u.inner = false) : s.add ts = (s, some .typeError) := by
  rw [Shape.add]
  simp only
  rw [if_neg]
  rintro (h | h)
  · have := h u hu; rw [h2] at this; simp at this
  · have := h t ht; rw [h1] at this; simp at this

/-- C39: adding an object without mesh fails only after mass, centre of mass, moments and degree
have been replaced by those of the sum. -/
theorem C39_add_no_mesh (s : Shape) (ts : List Shape)
    (hin : (∀ t ∈ s :: ts, t.inner = true) ∨ (∀ t ∈ s :: ts, t.inner = false)) (t : Shape)
    (ht : t ∈ s :: ts) (hm : t.mesh = none) :
    (s.add ts).2 = some .attributeError ∧ (s.add ts).1.mass = ((s :: ts).map Shape.mass).sum ∧
      (s.add ts).1.lmax = Shape.maxL s ts ∧ (s.add ts).1.mesh = s.mesh := by
  have hnone : (s :: ts).mapM Shape.mesh = none := by
    generalize s :: ts = us at ht
    induction us with
    | nil => simp at ht
    | cons u us ih =>
      rw [List.mapM_cons]
      rcases List.mem_cons.1 ht with rfl | ht
      · rw [hm]; rfl
      · rw [ih ht]; cases u.mesh <;> rfl
  rw [Shape.add]
  simp only [if_pos hin, hnone]
  exact ⟨trivial, trivial, trivial, trivial⟩

/-! ## C57: the mesh -/

/-- C57: translating an object moves its mesh as the body. -/
theorem C57_translate (s s' : Shape) (m : Mesh) (d : V3) (t : Bool) (hm : s.mesh = some m)
    (hs : s.translate d t = (s', none)) : s'.mesh = some ⟨(fun v => v + d) '' m.solid, m.pmass⟩ := by
  have : Shape.translateMesh m d = ⟨(fun v => v + d) '' m.solid, m.pmass⟩ := by
    rw [Shape.translateMesh]; rfl
  rw [← this]
  rw [Shape.translate, hm] at hs
  simp only at hs
  split_ifs at hs
  all_goals simp only [Prod.mk.injEq, and_true, reduceCtorEq, and_false] at hs
  all_goals (subst hs; rfl)

theorem meshTurn_z (t : ℝ) (S : Set V3) : Shape.meshTurn t ![0, 0, 1] S = turnZ t '' S := by
  ext w; simp [Shape.meshTurn, rotRow_z]

theorem meshTurn_y (t : ℝ) (S : Set V3) : Shape.meshTurn t ![0, 1, 0] S = turnY t '' S := by
  ext w; simp [Shape.meshTurn, rotRow_y]

/-- C57: rotating an object turns its mesh by the three turns in the opposite order: the mesh is
turned with `alpha` and `gamma` exchanged with respect to the moments and the centre of mass. -/
theorem C57_rotate (s s' : Shape) (m : Mesh) (alpha beta gamma : ℝ) (hm : s.mesh = some m)
    (hs : s.rotate alpha beta gamma = (s', none)) :
    s'.mesh = some ⟨euler gamma beta alpha '' m.solid, m.pmass⟩ := by
  rw [Shape.rotate, hm] at hs
  simp only [Prod.mk.injEq, and_true] at hs
  subst hs
  simp only [Shape.rotateMesh, meshTurn_z, meshTurn_y, Set.image_image]
  rfl

/-- C57: the mesh therefore follows the body when the two azimuths are equal. -/
theorem C57_rotate_equal_azimuths (s s' : Shape) (m : Mesh) (alpha beta : ℝ) (hm : s.mesh = some m)
    (hs : s.rotate alpha beta alpha = (s', none)) :
    s'.mesh = some ⟨euler alpha beta alpha '' m.solid, m.pmass⟩ := C57_rotate s s' m alpha beta alpha hm hs

/-- C57: and in general it does not: a point on the x axis turned by `(pi/2, pi/2, 0)`. -/
theorem C57_mesh_differs : euler (Real.pi / 2) (Real.pi / 2) 0 '' {![1, 0, 0]} ≠
    euler 0 (Real.pi / 2) (Real.pi / 2) '' {![1, 0, 0]} := by
  rw [Set.image_singleton, Set.image_singleton]
  intro h
  have h := Set.singleton_eq_singleton_iff.1 h
  have := congrFun h 2
  simp [euler, turnZ, turnY] at this

/-! ## C58: rotating an object with outer moments -/

/-- C58: rotating an object with outer moments about z turns its centre of mass by the angle, but
its moments become those of the array turned by the opposite angle. -/
theorem C58_outer_rotate_backwards (L : ℕ) (A : PtArray) (hA : OffOrigin A) (s s' : Shape) (c : V3) (phi : ℝ)
    (hs : s = ⟨false, L, some (Qmomentsb L A), some c, s.mass, s.mesh⟩) (hr : s.rotate phi 0 0 = (s', none)) :
    ∃ A', rotate_point_array A (-phi) ![0, 0, 1] = some A' ∧
      s' = ⟨false, L, some (Qmomentsb L A'), some (turnZ phi c), s.mass, s'.mesh⟩ := by
  obtain ⟨A', h1, h2⟩ := C53_inner_convention_turns_backwards L A phi hA
  refine ⟨A', h1, ?_⟩
  rw [Shape.rotate] at hr
  rcases hm : s.mesh with _ | m
  · rw [hm] at hr; simp at hr
  · rw [hm] at hr
    simp only [Prod.mk.injEq, and_true] at hr
    rw [rotcom] at hr
    rw [hs] at hr
    rw [← hr]
    simp only [Option.bind_some, h2, Option.map_some]
    have : euler phi 0 0 c = turnZ phi c := by
      have hz : turnZ 0 c = c := by funext i; fin_cases i <;> simp [turnZ]
      have hy : turnY 0 c = c := by funext i; fin_cases i <;> simp [turnY]
      rw [euler, hz, hy]
    rw [this]

/-! ## Non-vacuity -/

/-- C38: a concrete program (a ball and a box: move the box, turn it, add it to the ball, move the
sum) runs to the end and its books are right, centre of mass included. -/
example (mesh : Mesh) : ∃ s0 s1 : Shape,
    Shape.rectPrism 4 2 1 2 3 0 mesh = some s1 ∧ s0 = Shape.sphere 4 1 1 ![5, 0, 0] mesh ∧
    ∃ h', runShapes [.translate 1 ![0, 0, 7] true, .rotate 1 1 2 3, .add 0 [1], .translate 0 ![1, 1, 1] true]
      [s0, s1] = some h' ∧ h'.length = 2 ∧ ∀ s ∈ h', InUse s := by
  obtain ⟨s1, h1, b1⟩ := C38_rect_prism 4 2 1 2 3 0 mesh one_pos two_pos (by norm_num)
  have e1 := (computes_moments (computes_rect 1 2 3 0 one_pos two_pos (by norm_num))
    (prism_compact 1 _ (rotated_compact _ _ (rectangle_compact 2 3))) 4 2 mesh).1
  refine ⟨_, s1, h1, rfl, ?_⟩
  refine C38_total _ _ ?_ ?_
  · intro s hs
    simp only [List.mem_cons, List.not_mem_nil, or_false] at hs
    rcases hs with rfl | rfl
    · refine ⟨?_, ?_, ?_, ?_⟩ <;> simp [Shape.sphere, Shape.translate]
    · rw [Shape.rectPrism] at h1
      rw [e1, Option.some.injEq] at h1
      rw [← h1]
      exact ⟨rfl, rfl, rfl, two_pos⟩
  · intro op hop
    simp only [List.mem_cons, List.not_mem_nil, or_false] at hop
    rcases hop with rfl | rfl | rfl | rfl <;> simp [ShapeOp.Fits]

/-- C39: an object with outer moments exists, made by translating an inner one outwards. -/
example (mesh : Mesh) : ∃ s : Shape, s = ((Shape.sphere 4 1 1 0 mesh).translate ![5, 0, 0] false).1 ∧
    s.inner = false ∧ s.mesh ≠ none ∧ s.com = some ![5, 0, 0] := by
  refine ⟨_, rfl, ?_, ?_, ?_⟩ <;> simp [Shape.sphere, Shape.translate]

/-- C58: an object with outer moments to which the theorem applies. -/
example (m : Mesh) : ∃ s' : Shape, Shape.rotate ⟨false, 3, some (Qmomentsb 3 [⟨1, ![1, 0, 0]⟩]), some ![1, 0, 0], 1, some m⟩
    1 0 0 = (s', none) := ⟨_, rfl⟩

end Newt
