import Verif.Model.GenCAD
import Verif.Props.ShapesMake
import Verif.Proofs.PlanarNgon

/-!
# Geometry of the meshes
-/

namespace Newt.Cad

open Newt.Shape Newt.Spec

theorem turnZ_zero : turnZ 0 = id := by
  funext v; ext i; fin_cases i <;> simp [turnZ]

theorem turnY_zero : turnY 0 = id := by
  funext v; ext i; fin_cases i <;> simp [turnY]

theorem rotateMesh_z (S : Set V3) (p : Bool) (t : ℝ) : rotateMesh ⟨S, p⟩ t 0 0 = ⟨turnZ t '' S, p⟩ := by
  rw [rotateMesh]
  simp only [meshTurn_z, meshTurn_y, turnZ_zero, turnY_zero, Set.image_id]

theorem rotateMesh_y (S : Set V3) (p : Bool) (t : ℝ) : rotateMesh ⟨S, p⟩ 0 t 0 = ⟨turnY t '' S, p⟩ := by
  rw [rotateMesh]
  simp only [meshTurn_z, meshTurn_y, turnZ_zero, Set.image_id]

theorem vec_eta (v : V3) : v = ![v 0, v 1, v 2] := by
  ext i; fin_cases i <;> rfl

theorem extrude_prism (H : ℝ) (B : Set (ℝ × ℝ)) : extrudeBoth (H / 2) B = prism H B := rfl

theorem turnZ_prism (t H : ℝ) (B : Set (ℝ × ℝ)) : turnZ t '' prism H B = prism H (rotated t B) := by
  ext v
  constructor
  · rintro ⟨u, ⟨h1, h2, h3⟩, rfl⟩
    exact ⟨h1, h2, (u 0, u 1), h3, rfl, rfl⟩
  · rintro ⟨h1, h2, b, hb, e1, e2⟩
    refine ⟨![b.1, b.2, v 2], ⟨h1, h2, hb⟩, ?_⟩
    rw [vec_eta v]
    simp only at e1 e2
    rw [e1, e2]
    rfl

theorem turnZ_revolve (t A : ℝ) (D : Set (ℝ × ℝ)) :
    turnZ t '' revolve A D = {v | ∃ p ∈ D, ∃ phi, t ≤ phi ∧ phi ≤ t + A ∧
      v = ![p.1 * Real.cos phi, p.1 * Real.sin phi, p.2]} := by
  ext v
  constructor
  · rintro ⟨u, ⟨p, hp, phi, h1, h2, rfl⟩, rfl⟩
    refine ⟨p, hp, phi + t, by linarith, by linarith, ?_⟩
    rw [Real.cos_add, Real.sin_add]
    ext i; fin_cases i <;> simp [turnZ] <;> ring
  · rintro ⟨p, hp, phi, h1, h2, rfl⟩
    refine ⟨![p.1 * Real.cos (phi - t), p.1 * Real.sin (phi - t), p.2], ⟨p, hp, phi - t, by linarith, by linarith, rfl⟩, ?_⟩
    have hc := Real.cos_add (phi - t) t
    have hs := Real.sin_add (phi - t) t
    rw [sub_add_cancel] at hc hs
    rw [hc, hs]
    ext i; fin_cases i <;> simp [turnZ] <;> ring

theorem mem_hull3 (A B : ℝ × ℝ) : hull ![((0 : ℝ), (0 : ℝ)), A, B] = triangle A B := by
  ext p
  constructor
  · rintro ⟨w, h0, h1, rfl⟩
    rw [Fin.sum_univ_three] at h1
    refine ⟨w 1, w 2, h0 1, h0 2, by have := h0 0; linarith, ?_, ?_⟩ <;>
      simp [Fin.sum_univ_three]
  · rintro ⟨s, t, hs, ht, hst, e1, e2⟩
    refine ⟨![1 - s - t, s, t], ?_, ?_, ?_⟩
    · intro i; fin_cases i
      · change 0 ≤ 1 - s - t; linarith
      · exact hs
      · exact ht
    · simp [Fin.sum_univ_three]; ring
    · rw [Fin.sum_univ_three]
      ext
      · simp [e1]
      · simp [e2]

theorem hull_mono {E : Type*} [AddCommMonoid E] [Module ℝ E] {n : ℕ} (v : Fin n → E) (i : Fin n) : v i ∈ hull v := by
  classical
  refine ⟨fun j => if j = i then 1 else 0, fun j => by dsimp only; split_ifs <;> norm_num, by simp, ?_⟩
  simp

/-- The cylinder of circular cross section. -/
theorem cyl_prism (H R : ℝ) : cyl H R = prism H (disc R) := by
  ext v
  simp only [cyl, prism, disc, Set.mem_setOf_eq, abs_le]
  constructor
  · rintro ⟨a, b, c⟩; exact ⟨b, c, a⟩
  · rintro ⟨a, b, c⟩; exact ⟨c, a, b⟩

theorem annulus_solid (p : Bool) (H Ri Ro phic phih : ℝ) (hH : 0 < H) (hR : Ri ≤ Ro) :
    annulus p H Ri Ro phic phih = ⟨prism H (sector Ri Ro phic phih), p⟩ := by
  rw [annulus, meshTurn_z, turnZ_revolve]
  congr 1
  ext v
  constructor
  · rintro ⟨q, ⟨h1, h2⟩, phi, h3, h4, rfl⟩
    rw [abs_of_nonpos (by linarith : Ri - Ro ≤ 0), abs_le] at h1
    rw [abs_of_pos hH, abs_le] at h2
    exact ⟨h2.1, h2.2, q.1, phi, by linarith [h1.1], by linarith [h1.2], h3, by linarith, rfl, rfl⟩
  · rintro ⟨h1, h2, r, phi, h3, h4, h5, h6, e1, e2⟩
    refine ⟨(r, v 2), ⟨?_, ?_⟩, phi, h5, by linarith, ?_⟩
    · rw [abs_of_nonpos (by linarith : Ri - Ro ≤ 0), abs_le]
      constructor <;> simp only <;> linarith
    · rw [abs_of_pos hH, abs_le]
      exact ⟨h1, h2⟩
    · simp only at e1 e2
      rw [vec_eta v, e1, e2]
      simp

theorem cone_solid (p : Bool) (P R phic phih : ℝ) (hR : 0 < R) :
    cone p P 0 R phic phih = ⟨coneOver P (sector 0 R phic phih), p⟩ := by
  rw [cone]
  simp only [if_true]
  rw [rotateMesh_z, turnZ_revolve, mem_hull3]
  congr 1
  ext v
  constructor
  · rintro ⟨q, ⟨s, t, hs, ht, hst, e1, e2⟩, phi, h3, h4, rfl⟩
    simp only [mul_zero, add_zero, zero_add] at e1 e2
    refine ⟨1 - t, by linarith, by linarith, ((s * R / (1 - t)) * Real.cos phi, (s * R / (1 - t)) * Real.sin phi),
      ⟨s * R / (1 - t), phi, ?_, ?_, h3, by linarith, rfl, rfl⟩, ?_, ?_, ?_⟩
    · exact div_nonneg (by positivity) (by linarith)
    · rcases (by linarith : t ≤ 1).eq_or_lt with h | h
      · rw [h, sub_self, div_zero]; exact hR.le
      · rw [div_le_iff₀ (by linarith)]; nlinarith
    all_goals
      by_cases h : t = 1
      · have : s = 0 := by linarith
        subst h; subst this
        simp [e1, e2]
      · have h' : 1 - t ≠ 0 := fun hh => h (by linarith)
        simp [e1, e2]
        try field_simp
  · rintro ⟨s, h0, h1, b, ⟨r, phi, h2, h3, h4, h5, e1, e2⟩, e3, e4, e5⟩
    refine ⟨(s * r, (1 - s) * P), ⟨s * r / R, 1 - s, by positivity, by linarith, ?_, ?_, ?_⟩, phi, h4, by linarith, ?_⟩
    · have : s * r / R ≤ s := by rw [div_le_iff₀ hR]; nlinarith
      linarith
    · simp; field_simp
    · simp
    · rw [vec_eta v, e3, e4, e5, e1, e2]
      simp only [mul_assoc]

theorem tri_iso_solid (p : Bool) (H a d phic : ℝ) :
    triIsoPrism p H a d phic = ⟨prism H (rotated phic (triangle (d, -(a / 2)) (d, a / 2))), p⟩ := by
  rw [triIsoPrism, rotateMesh_z, extrude_prism, turnZ_prism, mem_hull3, neg_div]

theorem triangle_swap (A B : ℝ × ℝ) : triangle A B = triangle B A := by
  ext p
  constructor <;>
  · rintro ⟨s, t, hs, ht, hst, e1, e2⟩
    exact ⟨t, s, ht, hs, by linarith, by rw [e1]; ring, by rw [e2]; ring⟩

theorem rotated_triangle (phi : ℝ) (A B : ℝ × ℝ) : rotated phi (triangle A B) =
    triangle (A.1 * Real.cos phi - A.2 * Real.sin phi, A.1 * Real.sin phi + A.2 * Real.cos phi)
      (B.1 * Real.cos phi - B.2 * Real.sin phi, B.1 * Real.sin phi + B.2 * Real.cos phi) := by
  ext p
  constructor
  · rintro ⟨b, ⟨s, t, hs, ht, hst, e1, e2⟩, e3, e4⟩
    exact ⟨s, t, hs, ht, hst, by rw [e3, e1, e2]; ring, by rw [e4, e1, e2]; ring⟩
  · rintro ⟨s, t, hs, ht, hst, e1, e2⟩
    exact ⟨(s * A.1 + t * B.1, s * A.2 + t * B.2), ⟨s, t, hs, ht, hst, rfl, rfl⟩, by rw [e1]; ring, by rw [e2]; ring⟩

theorem tri_iso2_solid (p : Bool) (H R phic phih : ℝ) :
    triIsoPrism2 p H R phic phih = ⟨prism H (triangle (R * Real.cos (phic - phih), R * Real.sin (phic - phih))
          (R * Real.cos (phic + phih), R * Real.sin (phic + phih))), p⟩ := by
  rw [triIsoPrism2, rotateMesh_z, extrude_prism, turnZ_prism, mem_hull3, triangle_swap, rotated_triangle]
  congr 3
  · rw [Real.cos_sub, Real.sin_sub]; ext <;> simp <;> ring
  · rw [Real.cos_add, Real.sin_add]; ext <;> simp <;> ring

theorem tri_solid (p : Bool) (H d y1 y2 : ℝ) : triPrism p H d y1 y2 = ⟨prism H (triangle (d, y1) (d, y2)), p⟩ := by
  rw [triPrism, extrude_prism, mem_hull3]

theorem box_prism (a b H : ℝ) : box a b H = prism H (rectangle a b) := by
  ext v
  constructor
  · rintro ⟨h1, h2, h3⟩
    rw [abs_le] at h3
    exact ⟨h3.1, h3.2, h1, h2⟩
  · rintro ⟨h3, h4, h1, h2⟩
    exact ⟨h1, h2, abs_le.2 ⟨h3, h4⟩⟩

theorem rect_solid (p : Bool) (H a b phic : ℝ) :
    rectPrism p H a b phic = ⟨prism H (rotated phic (rectangle a b)), p⟩ := by
  rw [rectPrism, rotateMesh_z, box_prism, turnZ_prism]

theorem hull_tet (z : ℝ) (A B : ℝ × ℝ) :
    hull ![(![0, 0, 0] : V3), ![A.1, A.2, 0], ![B.1, B.2, 0], ![0, 0, z]] = coneOver z (triangle A B) := by
  ext v
  constructor
  · rintro ⟨w, h0, h1, rfl⟩
    rw [Fin.sum_univ_four] at h1
    have a0 := h0 0
    have a1 := h0 1
    have a2 := h0 2
    have a3 := h0 3
    by_cases h : w 3 = 1
    · have e1 : w 1 = 0 := by linarith
      have e2 : w 2 = 0 := by linarith
      refine ⟨0, le_rfl, zero_le_one, (0, 0), ⟨0, 0, le_rfl, le_rfl, by norm_num, by simp, by simp⟩, ?_, ?_, ?_⟩ <;>
        simp [Fin.sum_univ_four, e1, e2, h]
    · have h' : 0 < 1 - w 3 := lt_of_le_of_ne (by linarith) fun hh => h (by linarith)
      refine ⟨1 - w 3, h'.le, by linarith, (w 1 / (1 - w 3) * A.1 + w 2 / (1 - w 3) * B.1,
        w 1 / (1 - w 3) * A.2 + w 2 / (1 - w 3) * B.2),
        ⟨w 1 / (1 - w 3), w 2 / (1 - w 3), by positivity, by positivity, ?_, rfl, rfl⟩, ?_, ?_, ?_⟩
      · rw [← add_div, div_le_one h']; linarith
      all_goals
        simp [Fin.sum_univ_four]
        try field_simp
  · rintro ⟨s, h0, h1, b, ⟨s', t, hs, ht, hst, e1, e2⟩, e3, e4, e5⟩
    refine ⟨![s * (1 - s' - t), s * s', s * t, 1 - s], ?_, ?_, ?_⟩
    · intro i; fin_cases i
      · exact mul_nonneg h0 (by linarith)
      · exact mul_nonneg h0 hs
      · exact mul_nonneg h0 ht
      · change 0 ≤ 1 - s; linarith
    · simp [Fin.sum_univ_four]; ring
    · rw [vec_eta v, e3, e4, e5, e1, e2, Fin.sum_univ_four]
      ext i; fin_cases i <;> simp <;> ring

theorem tet_solid (p : Bool) (x y z : ℝ) : tetrahedron p x y z = ⟨coneOver z (triangle (x, 0) (0, y)), p⟩ := by
  rw [tetrahedron, ← hull_tet]

theorem tet2_solid (p : Bool) (x y1 y2 z : ℝ) :
    tetrahedron2 p x y1 y2 z = ⟨coneOver z (triangle (x, y1) (x, y2)), p⟩ := by
  rw [tetrahedron2, ← hull_tet]

theorem pyramid_solid (p : Bool) (x y z : ℝ) (hx : 0 < x) (hy : 0 < y) :
    pyramid p x y z = ⟨coneOver z (rectangle x y), p⟩ := by
  rw [pyramid]
  congr 1
  ext v
  constructor
  · rintro ⟨w, h0, h1, rfl⟩
    rw [Fin.sum_univ_five] at h1
    have a0 := h0 0
    have a1 := h0 1
    have a2 := h0 2
    have a3 := h0 3
    have a4 := h0 4
    by_cases h : w 4 = 1
    · have e0 : w 0 = 0 := by linarith
      have e1 : w 1 = 0 := by linarith
      have e2 : w 2 = 0 := by linarith
      have e3 : w 3 = 0 := by linarith
      refine ⟨0, le_rfl, zero_le_one, (0, 0), ⟨by simp; positivity, by simp; positivity⟩, ?_, ?_, ?_⟩ <;>
        simp [Fin.sum_univ_five, e0, e1, e2, e3, h]
    · have h' : 0 < 1 - w 4 := lt_of_le_of_ne (by linarith) fun hh => h (by linarith)
      refine ⟨1 - w 4, h'.le, by linarith, ((w 0 + w 1 - w 2 - w 3) * (x / 2) / (1 - w 4),
        (w 0 - w 1 - w 2 + w 3) * (y / 2) / (1 - w 4)), ⟨?_, ?_⟩, ?_, ?_, ?_⟩
      · simp only
        rw [abs_le, le_div_iff₀ h', div_le_iff₀ h']
        constructor <;> nlinarith
      · simp only
        rw [abs_le, le_div_iff₀ h', div_le_iff₀ h']
        constructor <;> nlinarith
      all_goals
        simp [Fin.sum_univ_five]
        try field_simp
        try ring
  · rintro ⟨s, h0, h1, b, ⟨hb1, hb2⟩, e3, e4, e5⟩
    rw [abs_le] at hb1 hb2
    have u1 : 0 ≤ 1 / 2 + b.1 / x := by
      rw [show 1 / 2 + b.1 / x = (x / 2 + b.1) / x by field_simp]; exact div_nonneg (by linarith) hx.le
    have u2 : 0 ≤ 1 / 2 - b.1 / x := by
      rw [show 1 / 2 - b.1 / x = (x / 2 - b.1) / x by field_simp]; exact div_nonneg (by linarith) hx.le
    have v1 : 0 ≤ 1 / 2 + b.2 / y := by
      rw [show 1 / 2 + b.2 / y = (y / 2 + b.2) / y by field_simp]; exact div_nonneg (by linarith) hy.le
    have v2 : 0 ≤ 1 / 2 - b.2 / y := by
      rw [show 1 / 2 - b.2 / y = (y / 2 - b.2) / y by field_simp]; exact div_nonneg (by linarith) hy.le
    refine ⟨![s * ((1 / 2 + b.1 / x) * (1 / 2 + b.2 / y)), s * ((1 / 2 + b.1 / x) * (1 / 2 - b.2 / y)),
      s * ((1 / 2 - b.1 / x) * (1 / 2 - b.2 / y)), s * ((1 / 2 - b.1 / x) * (1 / 2 + b.2 / y)), 1 - s], ?_, ?_, ?_⟩
    · intro i; fin_cases i
      · exact mul_nonneg h0 (mul_nonneg u1 v1)
      · exact mul_nonneg h0 (mul_nonneg u1 v2)
      · exact mul_nonneg h0 (mul_nonneg u2 v2)
      · exact mul_nonneg h0 (mul_nonneg u2 v1)
      · change 0 ≤ 1 - s; linarith
    · simp [Fin.sum_univ_five]; ring
    · rw [vec_eta v, e3, e4, e5, Fin.sum_univ_five]
      ext i; fin_cases i
      · simp; field_simp; ring
      · simp; field_simp; ring
      · simp

end Newt.Cad
