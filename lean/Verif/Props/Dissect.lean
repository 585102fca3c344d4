import Verif.Proofs.Dissect

/-!
# Property C118: bodies built from pieces

The moments of a body are the sum of the moments of the pieces it is cut into, whichever routines of `qlm.py` make the pieces.
-/

namespace Newt

open Spec MeasureTheory Finset Qlm

theorem get_ofFn_sum2 {L : ℕ} {f g h : ℕ → ℤ → ℂ} (e : ∀ l m, f l m = g l m + h l m) (l : ℕ) (m : ℤ) :
    (Mom.ofFn L f).get l m = (Mom.ofFn L g).get l m + (Mom.ofFn L h).get l m := by
  by_cases hl : l ≤ L ∧ m.natAbs ≤ L
  · rw [Mom.get_ofFn _ hl.1 hl.2, Mom.get_ofFn _ hl.1 hl.2, Mom.get_ofFn _ hl.1 hl.2, e]
  · rw [Mom.get_out _ hl, Mom.get_out _ hl, Mom.get_out _ hl, add_zero]

theorem get_ofFn_sum {L : ℕ} {ι : Type} (s : Finset ι) {f : ℕ → ℤ → ℂ} {g : ι → ℕ → ℤ → ℂ} (e : ∀ l m, f l m = ∑ i ∈ s, g i l m)
    (l : ℕ) (m : ℤ) : (Mom.ofFn L f).get l m = ∑ i ∈ s, (Mom.ofFn L (g i)).get l m := by
  by_cases hl : l ≤ L ∧ m.natAbs ≤ L
  · rw [Mom.get_ofFn _ hl.1 hl.2, e]
    exact sum_congr rfl fun i _ => (Mom.get_ofFn _ hl.1 hl.2).symm
  · rw [Mom.get_out _ hl]
    exact (sum_eq_zero fun i _ => Mom.get_out _ hl).symm

/-- Two pieces. -/
theorem prism_two (H : ℝ) (hH : 0 < H) {B C D : Set (ℝ × ℝ)} (m1 m2 : ℝ) (hB : IsCompact B) (hC : IsCompact C) (hD : IsCompact D)
    (hC0 : 0 < (volume C).toReal) (hD0 : 0 < (volume D).toReal) (hm : m1 * (volume D).toReal = m2 * (volume C).toReal)
    (h : ∀ m k : ℕ, pm B m k = pm C m k + pm D m k) (l : ℕ) (m : ℤ) :
    uniformMoment (m1 + m2) (prism H B) l m = uniformMoment m1 (prism H C) l m + uniformMoment m2 (prism H D) l m := by
  have hv : (volume B).toReal = (volume C).toReal + (volume D).toReal := by
    have := h 0 0
    rw [pm_zero, pm_zero, pm_zero] at this
    exact_mod_cast this
  have := prism_dissect (univ : Finset (Fin 2)) H hH B ![C, D] (m1 + m2) ![m1, m2] hB
    (fun i _ => by fin_cases i <;> assumption) (by rw [hv]; positivity)
    (fun i _ => by fin_cases i; exacts [hC0.ne', hD0.ne'])
    (fun i _ => by fin_cases i <;> simp only [Fin.zero_eta, Fin.mk_one, Matrix.cons_val] <;> rw [hv] <;> linarith)
    (fun m k => by rw [Fin.sum_univ_two]; exact h m k) l m
  rw [Fin.sum_univ_two] at this
  exact this

theorem cone_two (P : ℝ) (hP : 0 < P) {B C D : Set (ℝ × ℝ)} (m1 m2 : ℝ) (hB : IsCompact B) (hC : IsCompact C) (hD : IsCompact D)
    (hC0 : 0 < (volume C).toReal) (hD0 : 0 < (volume D).toReal) (hm : m1 * (volume D).toReal = m2 * (volume C).toReal)
    (h : ∀ m k : ℕ, pm B m k = pm C m k + pm D m k) (l : ℕ) (m : ℤ) :
    uniformMoment (m1 + m2) (coneOver P B) l m = uniformMoment m1 (coneOver P C) l m + uniformMoment m2 (coneOver P D) l m := by
  have hv : (volume B).toReal = (volume C).toReal + (volume D).toReal := by
    have := h 0 0
    rw [pm_zero, pm_zero, pm_zero] at this
    exact_mod_cast this
  have := cone_dissect (univ : Finset (Fin 2)) P hP B ![C, D] (m1 + m2) ![m1, m2] hB
    (fun i _ => by fin_cases i <;> assumption) (by rw [hv]; positivity)
    (fun i _ => by fin_cases i; exacts [hC0.ne', hD0.ne'])
    (fun i _ => by fin_cases i <;> simp only [Fin.zero_eta, Fin.mk_one, Matrix.cons_val] <;> rw [hv] <;> linarith)
    (fun m k => by rw [Fin.sum_univ_two]; exact h m k) l m
  rw [Fin.sum_univ_two] at this
  exact this

/-! ## Rings, sectors, discs and cones -/

/-- C118: an annular sector cut at the radius `Rm` into two of equal density (masses in proportion to the areas). -/
theorem C118_annulus_radii (L : ℕ) (m1 m2 H Ri Rm Ro phic phih : ℝ) (hH : 0 < H) (hRi : 0 ≤ Ri) (h1 : Ri < Rm) (h2 : Rm < Ro)
    (h0 : 0 < phih) (hpi : phih ≤ Real.pi) (hm : m1 * (Ro ^ 2 - Rm ^ 2) = m2 * (Rm ^ 2 - Ri ^ 2)) :
    ∃ q q1 q2, annulus L (m1 + m2) H Ri Ro phic phih = .ok q ∧ annulus L m1 H Ri Rm phic phih = .ok q1 ∧
      annulus L m2 H Rm Ro phic phih = .ok q2 ∧ ∀ l m, q.get l m = q1.get l m + q2.get l m := by
  refine ⟨_, _, _, C36_annulus L _ _ _ _ _ _ hH hRi (h1.trans h2) h0 hpi, C36_annulus L _ _ _ _ _ _ hH hRi h1 h0 hpi,
    C36_annulus L _ _ _ _ _ _ hH (hRi.trans h1.le) h2 h0 hpi, get_ofFn_sum2 fun l m => ?_⟩
  have v1 := vol_sector (phic := phic) hRi h1.le h0.le hpi
  have v2 := vol_sector (phic := phic) (hRi.trans h1.le) h2.le h0.le hpi
  refine prism_two H hH m1 m2 (sector_compact _ _ _ _) (sector_compact _ _ _ _) (sector_compact _ _ _ _) ?_ ?_ ?_
    (pm_sector_radii hRi h1.le h2.le h0.le hpi) l m
  · rw [v1]; exact mul_pos (by nlinarith) h0
  · rw [v2]; exact mul_pos (by nlinarith) h0
  · rw [v1, v2]; linear_combination phih * hm

/-- C118: an annular sector of half opening `h1 + h2` cut along a half plane through the axis into sectors of half openings `h1` and `h2`. -/
theorem C118_annulus_angles (L : ℕ) (m1 m2 H Ri Ro phic h1 h2 : ℝ) (hH : 0 < H) (hRi : 0 ≤ Ri) (hR : Ri < Ro)
    (hh1 : 0 < h1) (hh2 : 0 < h2) (hpi : h1 + h2 ≤ Real.pi) (hm : m1 * h2 = m2 * h1) :
    ∃ q q1 q2, annulus L (m1 + m2) H Ri Ro phic (h1 + h2) = .ok q ∧ annulus L m1 H Ri Ro (phic - h2) h1 = .ok q1 ∧
      annulus L m2 H Ri Ro (phic + h1) h2 = .ok q2 ∧ ∀ l m, q.get l m = q1.get l m + q2.get l m := by
  refine ⟨_, _, _, C36_annulus L _ _ _ _ _ _ hH hRi hR (by linarith) hpi, C36_annulus L _ _ _ _ _ _ hH hRi hR hh1 (by linarith),
    C36_annulus L _ _ _ _ _ _ hH hRi hR hh2 (by linarith), get_ofFn_sum2 fun l m => ?_⟩
  have v1 := vol_sector (phic := phic - h2) hRi hR.le hh1.le (by linarith)
  have v2 := vol_sector (phic := phic + h1) hRi hR.le hh2.le (by linarith)
  have hA : 0 < Ro ^ 2 - Ri ^ 2 := by nlinarith
  refine prism_two H hH m1 m2 (sector_compact _ _ _ _) (sector_compact _ _ _ _) (sector_compact _ _ _ _) ?_ ?_ ?_
    (pm_sector_angles hRi hR.le hh1.le hh2.le hpi) l m
  · rw [v1]; exact mul_pos hA hh1
  · rw [v2]; exact mul_pos hA hh2
  · rw [v1, v2]; linear_combination (Ro ^ 2 - Ri ^ 2) * hm

/-- C118: the same for sectors of cones. -/
theorem C118_cone_angles (L : ℕ) (m1 m2 P R phic h1 h2 : ℝ) (hP : 0 < P) (hR : 0 < R)
    (hh1 : 0 < h1) (hh2 : 0 < h2) (hpi : h1 + h2 ≤ Real.pi) (hm : m1 * h2 = m2 * h1) :
    ∃ q q1 q2, cone L (m1 + m2) P R phic (h1 + h2) = .ok q ∧ cone L m1 P R (phic - h2) h1 = .ok q1 ∧
      cone L m2 P R (phic + h1) h2 = .ok q2 ∧ ∀ l m, q.get l m = q1.get l m + q2.get l m := by
  refine ⟨_, _, _, C36_cone L _ _ _ _ _ hP hR (by linarith) hpi, C36_cone L _ _ _ _ _ hP hR hh1 (by linarith),
    C36_cone L _ _ _ _ _ hP hR hh2 (by linarith), get_ofFn_sum2 fun l m => ?_⟩
  have v1 := vol_sector (phic := phic - h2) le_rfl hR.le hh1.le (by linarith)
  have v2 := vol_sector (phic := phic + h1) le_rfl hR.le hh2.le (by linarith)
  have hA : 0 < R ^ 2 - 0 ^ 2 := by rw [zero_pow two_ne_zero, sub_zero]; positivity
  refine cone_two P hP m1 m2 (sector_compact _ _ _ _) (sector_compact _ _ _ _) (sector_compact _ _ _ _) ?_ ?_ ?_
    (pm_sector_angles le_rfl hR.le hh1.le hh2.le hpi) l m
  · rw [v1]; exact mul_pos hA hh1
  · rw [v2]; exact mul_pos hA hh2
  · rw [v1, v2]; linear_combination (R ^ 2 - 0 ^ 2) * hm

/-- C118: a cylinder is a full annulus without hole, wherever its sector is centred. -/
theorem C118_cylinder_annulus (L : ℕ) (mass H R phic : ℝ) (hH : 0 < H) (hR : 0 < R) :
    annulus L mass H 0 R phic Real.pi = cylinder L mass H R := by
  rw [C36_annulus L _ _ _ _ _ _ hH le_rfl hR Real.pi_pos le_rfl, C36_cylinder L _ _ _ hH hR]
  congr 1
  apply Mom.ext_get
  intro l m hl hm
  rw [Mom.get_ofFn _ hl hm, Mom.get_ofFn _ hl hm]
  have v1 : (volume (sector 0 R phic Real.pi)).toReal = R ^ 2 * Real.pi := by
    rw [vol_sector le_rfl hR.le Real.pi_pos.le le_rfl]; ring
  have v2 : (volume (disc R)).toReal = R ^ 2 * Real.pi := by
    rw [disc_sector R hR.le, vol_sector le_rfl hR.le Real.pi_pos.le le_rfl]; ring
  have hp : 0 < R ^ 2 * Real.pi := by have := Real.pi_pos; positivity
  have hd : IsCompact (disc R) := by rw [disc_sector R hR.le]; exact sector_compact _ _ _ _
  have := prism_dissect ({0} : Finset ℕ) H hH (sector 0 R phic Real.pi) (fun _ => disc R) mass (fun _ => mass) (sector_compact _ _ _ _)
    (fun _ _ => hd) (by rw [v1]; exact hp.ne') (fun _ _ => by rw [v2]; exact hp.ne') (fun _ _ => by rw [v1, v2]) (fun m k => by
      rw [sum_singleton, disc_sector R hR.le, pm_sector _ _ _ _ le_rfl hR.le Real.pi_pos.le le_rfl,
        pm_sector _ _ _ _ le_rfl hR.le Real.pi_pos.le le_rfl]
      rcases Nat.eq_zero_or_pos m with rfl | h
      · simp [phase]
      · have : sinc (m * Real.pi) = 0 := by
          rw [sinc, if_neg (by have := Real.pi_pos; positivity), Real.sin_nat_mul_pi, zero_div]
        rw [this]; simp) l m
  simpa using this

/-- C118: a cylinder is a core and a ring. -/
theorem C118_cylinder_core (L : ℕ) (m1 m2 H Ri Ro phic : ℝ) (hH : 0 < H) (hRi : 0 < Ri) (hR : Ri < Ro)
    (hm : m1 * (Ro ^ 2 - Ri ^ 2) = m2 * Ri ^ 2) :
    ∃ q q1 q2, cylinder L (m1 + m2) H Ro = .ok q ∧ cylinder L m1 H Ri = .ok q1 ∧ annulus L m2 H Ri Ro phic Real.pi = .ok q2 ∧
      ∀ l m, q.get l m = q1.get l m + q2.get l m := by
  rw [← C118_cylinder_annulus L _ _ _ phic hH (hRi.trans hR), ← C118_cylinder_annulus L _ _ _ phic hH hRi]
  exact C118_annulus_radii L m1 m2 H 0 Ri Ro phic Real.pi hH le_rfl hRi hR Real.pi_pos le_rfl (by rw [hm]; ring)

/-! ## Prisms with polygonal bases, and pyramids -/

/-- C118: a triangular prism cut along a plane through its edge on the axis. -/
theorem C118_tri_prism (L : ℕ) (m1 m2 H d y1 y2 y3 : ℝ) (hH : 0 < H) (hd : 0 < d) (h1 : y1 < y2) (h2 : y2 < y3)
    (hm : m1 * (y3 - y2) = m2 * (y2 - y1)) :
    ∃ q q1 q2, triPrism L (m1 + m2) H d y1 y3 = .ok q ∧ triPrism L m1 H d y1 y2 = .ok q1 ∧ triPrism L m2 H d y2 y3 = .ok q2 ∧
      ∀ l m, q.get l m = q1.get l m + q2.get l m := by
  refine ⟨_, _, _, C36_tri_prism L _ _ _ _ _ hH hd.ne' (h1.trans h2).ne, C36_tri_prism L _ _ _ _ _ hH hd.ne' h1.ne,
    C36_tri_prism L _ _ _ _ _ hH hd.ne' h2.ne, get_ofFn_sum2 fun l m => ?_⟩
  have v1 := vol_triangle hd h1.le
  have v2 := vol_triangle hd h2.le
  refine prism_two H hH m1 m2 (triangle_compact _ _) (triangle_compact _ _) (triangle_compact _ _) ?_ ?_ ?_
    (pm_triangle_split hd h1.le h2.le) l m
  · rw [v1]; exact mul_pos (by linarith) (by linarith)
  · rw [v2]; exact mul_pos (by linarith) (by linarith)
  · rw [v1, v2]; linear_combination d / 2 * hm

/-- C118: the same for tetrahedra. -/
theorem C118_tetrahedron2 (L : ℕ) (m1 m2 x y1 y2 y3 z : ℝ) (hx : 0 < x) (hz : 0 < z) (h1 : y1 < y2) (h2 : y2 < y3)
    (hm : m1 * (y3 - y2) = m2 * (y2 - y1)) :
    ∃ q q1 q2, tetrahedron2 L (m1 + m2) x y1 y3 z = .ok q ∧ tetrahedron2 L m1 x y1 y2 z = .ok q1 ∧
      tetrahedron2 L m2 x y2 y3 z = .ok q2 ∧ ∀ l m, q.get l m = q1.get l m + q2.get l m := by
  refine ⟨_, _, _, C36_tetrahedron2 L _ _ _ _ _ hx (h1.trans h2).ne hz, C36_tetrahedron2 L _ _ _ _ _ hx h1.ne hz,
    C36_tetrahedron2 L _ _ _ _ _ hx h2.ne hz, get_ofFn_sum2 fun l m => ?_⟩
  have v1 := vol_triangle hx h1.le
  have v2 := vol_triangle hx h2.le
  refine cone_two z hz m1 m2 (triangle_compact _ _) (triangle_compact _ _) (triangle_compact _ _) ?_ ?_ ?_
    (pm_triangle_split hx h1.le h2.le) l m
  · rw [v1]; exact mul_pos (by linarith) (by linarith)
  · rw [v2]; exact mul_pos (by linarith) (by linarith)
  · rw [v1, v2]; linear_combination x / 2 * hm

/-! ## Turning about the axis -/

theorem uniform_turn {S T : Set V3} {t : ℝ} (mass : ℝ) (hv : (volume T).toReal = (volume S).toReal)
    (h : ∀ l m : ℕ, m ≤ l → ∫ v in T, solidS l m v = Complex.exp (-Complex.I * m * t) * ∫ v in S, solidS l m v) (l : ℕ) (m : ℤ) :
    uniformMoment mass T l m = Complex.exp (-Complex.I * m * t) * uniformMoment mass S l m := by
  have key : ∀ m : ℕ, uniformMoment mass T l m = Complex.exp (-Complex.I * (m : ℤ) * t) * uniformMoment mass S l m := by
    intro m
    by_cases hm : m ≤ l
    · rw [uniformMoment, uniformMoment, h l m hm, hv]; push_cast; ring
    · rw [uniformMoment_out _ _ _ _ (by omega), uniformMoment_out _ _ _ _ (by omega), mul_zero]
  obtain ⟨k, rfl | rfl⟩ := Int.eq_nat_or_neg m
  · exact key k
  · rw [uniformMoment_neg, key k, uniformMoment_neg, map_mul, ← Complex.exp_conj]
    have : (starRingEnd ℂ) (-Complex.I * (k : ℤ) * t) = -Complex.I * ((-(k : ℤ) : ℤ) : ℂ) * t := by
      simp [map_mul]
    rw [this]; ring

theorem prism_turn (H : ℝ) (hH : 0 < H) (B : Set (ℝ × ℝ)) (hB : IsCompact B) (mass t : ℝ) (l : ℕ) (m : ℤ) :
    uniformMoment mass (prism H (rotated t B)) l m = Complex.exp (-Complex.I * m * t) * uniformMoment mass (prism H B) l m := by
  apply uniform_turn
  · rw [prism_vol H hH, prism_vol H hH, vol_rotated']
  · intro l m hm
    rw [prism_int H hH _ (rotated_compact _ _ hB) l m hm, prism_int H hH _ hB l m hm, mul_sum]
    exact sum_congr rfl fun k _ => by rw [pm_rotated]; ring

theorem cone_turn (P : ℝ) (hP : 0 < P) (B : Set (ℝ × ℝ)) (hB : IsCompact B) (mass t : ℝ) (l : ℕ) (m : ℤ) :
    uniformMoment mass (coneOver P (rotated t B)) l m = Complex.exp (-Complex.I * m * t) * uniformMoment mass (coneOver P B) l m := by
  apply uniform_turn
  · rw [cone_vol P hP _ (rotated_compact _ _ hB), cone_vol P hP _ hB, vol_rotated']
  · intro l m hm
    rw [cone_int P hP _ (rotated_compact _ _ hB) l m hm, cone_int P hP _ hB l m hm, mul_sum]
    exact sum_congr rfl fun k _ => by rw [pm_rotated]; ring

theorem rotate_of_turn {L : ℕ} {mass mass' t : ℝ} {S T : Set V3}
    (h : ∀ l m, uniformMoment mass' T l m = Complex.exp (-Complex.I * m * t) * uniformMoment mass S l m) :
    rotate_qlm (Mom.ofFn L (uniformMoment mass S)) t 0 0 = some (Mom.ofFn L (uniformMoment mass' T)) := by
  obtain ⟨q', h1, h2, h3⟩ := C27_about_z (Mom.ofFn L (uniformMoment mass S)) t 0
  rw [h1, Option.some.injEq]
  apply Mom.ext_get
  intro l m hl hm
  by_cases hml : m.natAbs ≤ l
  · rw [h2 l m hl hml, Mom.get_ofFn _ hl hm, Mom.get_ofFn _ hl hm, h]; push_cast; rw [add_zero]
  · rw [h3 l m hl hm (by omega), Mom.get_ofFn _ hl hm, Mom.get_ofFn _ hl hm, uniformMoment_out _ _ _ _ (by omega),
      uniformMoment_out _ _ _ _ (by omega)]

theorem rotated_add (s t : ℝ) (B : Set (ℝ × ℝ)) : rotated s (rotated t B) = rotated (s + t) B := by
  ext ⟨x, y⟩
  rw [mem_rotated, mem_rotated, mem_rotated, Real.cos_add, Real.sin_add]
  ring_nf

/-- C118: an isosceles prism is a triangular prism turned about the axis. -/
theorem C118_tri_iso_rotated (L : ℕ) (mass H a d phic : ℝ) (hH : 0 < H) (ha : 0 < a) (hd : d ≠ 0) :
    ∃ q q', triPrism L mass H d (-(a / 2)) (a / 2) = .ok q ∧ triIsoPrism L mass H a d phic = .ok q' ∧
      rotate_qlm q phic 0 0 = some q' :=
  ⟨_, _, C36_tri_prism L _ _ _ _ _ hH hd (by linarith), C36_tri_iso_prism L _ _ _ _ _ hH ha hd,
    rotate_of_turn (prism_turn H hH _ (triangle_compact _ _) mass phic)⟩

/-- C118: turning a body about the axis is adding the angle to its `phic`. -/
theorem C118_turn_annulus (L : ℕ) (mass H Ri Ro phic phih t : ℝ) (hH : 0 < H) (hRi : 0 ≤ Ri) (hR : Ri < Ro) (h0 : 0 < phih)
    (hpi : phih ≤ Real.pi) :
    ∃ q q', annulus L mass H Ri Ro phic phih = .ok q ∧ annulus L mass H Ri Ro (t + phic) phih = .ok q' ∧ rotate_qlm q t 0 0 = some q' := by
  refine ⟨_, _, C36_annulus L _ _ _ _ _ _ hH hRi hR h0 hpi, C36_annulus L _ _ _ _ _ _ hH hRi hR h0 hpi, rotate_of_turn ?_⟩
  rw [sector_rotated Ri Ro (t + phic), ← rotated_add, ← sector_rotated]
  exact prism_turn H hH _ (sector_compact _ _ _ _) mass t

theorem C118_turn_cone (L : ℕ) (mass P R phic phih t : ℝ) (hP : 0 < P) (hR : 0 < R) (h0 : 0 < phih) (hpi : phih ≤ Real.pi) :
    ∃ q q', cone L mass P R phic phih = .ok q ∧ cone L mass P R (t + phic) phih = .ok q' ∧ rotate_qlm q t 0 0 = some q' := by
  refine ⟨_, _, C36_cone L _ _ _ _ _ hP hR h0 hpi, C36_cone L _ _ _ _ _ hP hR h0 hpi, rotate_of_turn ?_⟩
  rw [sector_rotated 0 R (t + phic), ← rotated_add, ← sector_rotated]
  exact cone_turn P hP _ (sector_compact _ _ _ _) mass t

theorem C118_turn_tri_iso_prism (L : ℕ) (mass H a d phic t : ℝ) (hH : 0 < H) (ha : 0 < a) (hd : d ≠ 0) :
    ∃ q q', triIsoPrism L mass H a d phic = .ok q ∧ triIsoPrism L mass H a d (t + phic) = .ok q' ∧ rotate_qlm q t 0 0 = some q' := by
  refine ⟨_, _, C36_tri_iso_prism L _ _ _ _ _ hH ha hd, C36_tri_iso_prism L _ _ _ _ _ hH ha hd, rotate_of_turn ?_⟩
  rw [← rotated_add]
  exact prism_turn H hH _ (rotated_compact _ _ (triangle_compact _ _)) mass t

theorem C118_turn_rect_prism (L : ℕ) (mass H a b phic t : ℝ) (hH : 0 < H) (ha : 0 < a) (hb : 0 < b) :
    ∃ q q', rectPrism L mass H a b phic = .ok q ∧ rectPrism L mass H a b (t + phic) = .ok q' ∧ rotate_qlm q t 0 0 = some q' := by
  refine ⟨_, _, C36_rect_prism L _ _ _ _ _ hH ha hb, C36_rect_prism L _ _ _ _ _ hH ha hb, rotate_of_turn ?_⟩
  rw [← rotated_add]
  exact prism_turn H hH _ (rotated_compact _ _ (rectangle_compact _ _)) mass t

theorem C118_turn_ngon_prism (L : ℕ) (mass H a phic t : ℝ) (N : ℕ) (hN : 3 ≤ N) (hH : 0 < H) (ha : 0 < a) :
    ∃ q q', ngonPrism L mass H a phic N = .ok q ∧ ngonPrism L mass H a (t + phic) N = .ok q' ∧ rotate_qlm q t 0 0 = some q' := by
  refine ⟨_, _, C36_ngon_prism L _ _ _ _ _ hN hH ha, C36_ngon_prism L _ _ _ _ _ hN hH ha, rotate_of_turn ?_⟩
  rw [polygon_rotated a (t + phic), ← rotated_add, ← polygon_rotated]
  exact prism_turn H hH _ (polygon_rotated a phic ▸ rotated_compact _ _ (polygon_compact hN ha)) mass t

/-- C118: swapping the sides of a rectangular prism is a quarter turn. -/
theorem C118_rect_swap (L : ℕ) (mass H a b phic : ℝ) (hH : 0 < H) (ha : 0 < a) (hb : 0 < b) :
    rectPrism L mass H a b phic = rectPrism L mass H b a (phic + Real.pi / 2) := by
  rw [C36_rect_prism L _ _ _ _ _ hH ha hb, C36_rect_prism L _ _ _ _ _ hH hb ha, ← rotated_add]
  have : rotated (Real.pi / 2) (rectangle b a) = rectangle a b := by
    ext ⟨x, y⟩
    rw [mem_rotated]
    simp [rectangle, and_comm]
  rw [this]

theorem rectPiece_compact (a b : ℝ) (j : ℕ) : IsCompact (rectPiece a b j) := by
  apply rotated_compact; split_ifs <;> exact triangle_compact _ _

theorem vol_rectPiece {a b : ℝ} (ha : 0 < a) (hb : 0 < b) (j : ℕ) : (volume (rectPiece a b j)).toReal = a * b / 4 := by
  rw [rectPiece, vol_rotated']
  split_ifs
  · rw [vol_triangle (by linarith) (by linarith)]; ring
  · rw [vol_triangle (by linarith) (by linarith)]; ring

/-- C118: a rectangular prism is four isosceles prisms of a quarter of its mass, one on each side. -/
theorem C118_rect_prism (L : ℕ) (mass H a b phic : ℝ) (hH : 0 < H) (ha : 0 < a) (hb : 0 < b) :
    ∃ q q0 q1 q2 q3, rectPrism L mass H a b phic = .ok q ∧ triIsoPrism L (mass / 4) H b (a / 2) phic = .ok q0 ∧
      triIsoPrism L (mass / 4) H a (b / 2) (phic + Real.pi / 2) = .ok q1 ∧
      triIsoPrism L (mass / 4) H b (a / 2) (phic + Real.pi) = .ok q2 ∧
      triIsoPrism L (mass / 4) H a (b / 2) (phic + 3 * Real.pi / 2) = .ok q3 ∧
      ∀ l m, q.get l m = q0.get l m + q1.get l m + q2.get l m + q3.get l m := by
  refine ⟨_, _, _, _, _, C36_rect_prism L _ _ _ _ _ hH ha hb, C36_tri_iso_prism L _ _ _ _ _ hH hb (by positivity),
    C36_tri_iso_prism L _ _ _ _ _ hH ha (by positivity), C36_tri_iso_prism L _ _ _ _ _ hH hb (by positivity),
    C36_tri_iso_prism L _ _ _ _ _ hH ha (by positivity), fun l m => ?_⟩
  have h := prism_dissect (range 4) H hH (rotated phic (rectangle a b)) (fun j => rotated phic (rectPiece a b j)) mass (fun _ => mass / 4)
    (rotated_compact _ _ (rectangle_compact a b)) (fun j _ => rotated_compact _ _ (rectPiece_compact a b j))
    (by rw [vol_rotated', vol_rectangle ha hb]; positivity)
    (fun j _ => by rw [vol_rotated', vol_rectPiece ha hb]; positivity)
    (fun j _ => by rw [vol_rotated', vol_rotated', vol_rectPiece ha hb, vol_rectangle ha hb]; ring)
    (fun m k => by
      rw [pm_rotated, pm_rect_pieces ha hb, mul_sum]
      exact sum_congr rfl fun j _ => (pm_rotated _ _ _ _).symm)
  have h' := get_ofFn_sum (L := L) _ h l m
  rw [h']
  simp only [sum_range_succ, sum_range_zero, zero_add, rectPiece, rotated_add]
  norm_num
  rw [show phic + 2 * (Real.pi / 2) = phic + Real.pi by ring, show phic + 3 * (Real.pi / 2) = phic + 3 * Real.pi / 2 by ring]

/-- C118: a regular prism is `N` isosceles prisms, one on each side. -/
theorem C118_ngon_prism (L : ℕ) (mass H a phic : ℝ) (N : ℕ) (hN : 3 ≤ N) (hH : 0 < H) (ha : 0 < a) :
    ∃ (q : Mom L) (p : ℕ → Mom L), ngonPrism L mass H a phic N = .ok q ∧
      (∀ j : ℕ, triIsoPrism L (mass / N) H a (a / (2 * Real.tan (Real.pi / N))) (phic + 2 * Real.pi * j / N) = .ok (p j)) ∧
      ∀ l m, q.get l m = ∑ j ∈ range N, (p j).get l m := by
  have hd := apo_pos hN ha
  have hN0 : (N : ℝ) ≠ 0 := by exact_mod_cast (by omega : N ≠ 0)
  have hd' : a / (2 * Real.tan (Real.pi / N)) ≠ 0 := hd.ne'
  refine ⟨_, _, C36_ngon_prism L _ _ _ _ _ hN hH ha, fun j => C36_tri_iso_prism L _ _ _ _ _ hH ha hd', get_ofFn_sum _ ?_⟩
  have v : ∀ j : ℕ, (volume (rotated (phic + 2 * Real.pi * j / N) (triangle (apo N a, -(a / 2)) (apo N a, a / 2)))).toReal = apo N a * a / 2 := by
    intro j; rw [vol_rotated', vol_triangle hd (by linarith)]; ring
  have V : (volume (regularPolygon N a phic)).toReal = N * (apo N a * a / 2) := by
    have h := pm_polygon_pieces hN ha phic 0 0
    have e : ∀ j ∈ range N, pm (rotated (phic + 2 * Real.pi * j / N) (triangle (apo N a, -(a / 2)) (apo N a, a / 2))) 0 0 =
        ((apo N a * a / 2 : ℝ) : ℂ) := fun j _ => by rw [pm_zero, v j]
    rw [sum_congr rfl e, sum_const, card_range, nsmul_eq_mul] at h
    apply pm_vol
    rw [h]; push_cast; ring
  exact prism_dissect (range N) H hH (regularPolygon N a phic)
    (fun j : ℕ => rotated (phic + 2 * Real.pi * j / N) (triangle (apo N a, -(a / 2)) (apo N a, a / 2))) mass (fun _ => mass / N)
    (polygon_rotated a phic ▸ rotated_compact _ _ (polygon_compact hN ha)) (fun j _ => rotated_compact _ _ (triangle_compact _ _))
    (by rw [V]; positivity) (fun j _ => by rw [v j]; positivity)
    (fun j _ => by rw [v j, V]; field_simp) (pm_polygon_pieces hN ha phic)

/-- C118: a pyramid is four tetrahedra of a quarter of its mass, two of them as they are and two turned. -/
theorem C118_pyramid (L : ℕ) (mass x y z : ℝ) (hx : 0 < x) (hy : 0 < y) (hz : 0 < z) :
    ∃ q p p' r1 r2 r3, pyramid L mass x y z = .ok q ∧ tetrahedron2 L (mass / 4) x (-y) y z = .ok p ∧
      tetrahedron2 L (mass / 4) y (-x) x z = .ok p' ∧ rotate_qlm p' (Real.pi / 2) 0 0 = some r1 ∧ rotate_qlm p Real.pi 0 0 = some r2 ∧
      rotate_qlm p' (3 * Real.pi / 2) 0 0 = some r3 ∧
      ∀ l m, q.get l m = p.get l m + r1.get l m + r2.get l m + r3.get l m := by
  have ha : 0 < 2 * x := by linarith
  have hb : 0 < 2 * y := by linarith
  refine ⟨_, _, _, _, _, _, C36_pyramid L _ _ _ _ hx hy hz, C36_tetrahedron2 L _ _ _ _ _ hx (by linarith) hz,
    C36_tetrahedron2 L _ _ _ _ _ hy (by linarith) hz, rotate_of_turn (cone_turn z hz _ (triangle_compact _ _) _ _),
    rotate_of_turn (cone_turn z hz _ (triangle_compact _ _) _ _), rotate_of_turn (cone_turn z hz _ (triangle_compact _ _) _ _), fun l m => ?_⟩
  have h := cone_dissect (range 4) z hz (rectangle (2 * x) (2 * y)) (rectPiece (2 * x) (2 * y)) mass (fun _ => mass / 4)
    (rectangle_compact _ _) (fun j _ => rectPiece_compact _ _ j)
    (by rw [vol_rectangle ha hb]; positivity)
    (fun j _ => by rw [vol_rectPiece ha hb]; positivity)
    (fun j _ => by rw [vol_rectPiece ha hb, vol_rectangle ha hb]; ring)
    (pm_rect_pieces ha hb)
  have h' := get_ofFn_sum (L := L) _ h l m
  rw [h']
  have z0 : rotated (((0 : ℕ) : ℝ) * (Real.pi / 2)) (triangle (x, -y) (x, y)) = triangle (x, -y) (x, y) := by
    ext ⟨u, v⟩; rw [mem_rotated]; simp
  simp only [sum_range_succ, sum_range_zero, zero_add, rectPiece, mul_div_cancel_left₀ x (two_ne_zero' ℝ), mul_div_cancel_left₀ y (two_ne_zero' ℝ)]
  norm_num at z0 ⊢
  rw [z0, show 2 * (Real.pi / 2) = Real.pi by ring, show 3 * (Real.pi / 2) = 3 * Real.pi / 2 by ring]

/-! ## Stacking -/

/-- C118: two prisms of equal cross section and density stacked on each other. -/
theorem C118_stack_cylinder (L : ℕ) (m1 m2 h1 h2 R : ℝ) (hh1 : 0 < h1) (hh2 : 0 < h2) (hR : 0 < R) (hm : m1 * h2 = m2 * h1) :
    ∃ q q1 q2, cylinder L (m1 + m2) (h1 + h2) R = .ok q ∧ cylinder L m1 h1 R = .ok q1 ∧ cylinder L m2 h2 R = .ok q2 ∧
      ∀ l m, q.get l m = (translate_qlm q1 ![0, 0, -(h2 / 2)]).get l m + (translate_qlm q2 ![0, 0, h1 / 2]).get l m :=
  ⟨_, _, _, C36_cylinder L _ _ _ (by linarith) hR, C36_cylinder L _ _ _ hh1 hR, C36_cylinder L _ _ _ hh2 hR,
    prism_stack L m1 m2 h1 h2 hh1 hh2 hm _ (by rw [disc_sector R hR.le]; exact sector_compact _ _ _ _)⟩

theorem C118_stack_annulus (L : ℕ) (m1 m2 h1 h2 Ri Ro phic phih : ℝ) (hh1 : 0 < h1) (hh2 : 0 < h2) (hRi : 0 ≤ Ri) (hR : Ri < Ro)
    (h0 : 0 < phih) (hpi : phih ≤ Real.pi) (hm : m1 * h2 = m2 * h1) :
    ∃ q q1 q2, annulus L (m1 + m2) (h1 + h2) Ri Ro phic phih = .ok q ∧ annulus L m1 h1 Ri Ro phic phih = .ok q1 ∧
      annulus L m2 h2 Ri Ro phic phih = .ok q2 ∧
      ∀ l m, q.get l m = (translate_qlm q1 ![0, 0, -(h2 / 2)]).get l m + (translate_qlm q2 ![0, 0, h1 / 2]).get l m :=
  ⟨_, _, _, C36_annulus L _ _ _ _ _ _ (by linarith) hRi hR h0 hpi, C36_annulus L _ _ _ _ _ _ hh1 hRi hR h0 hpi,
    C36_annulus L _ _ _ _ _ _ hh2 hRi hR h0 hpi, prism_stack L m1 m2 h1 h2 hh1 hh2 hm _ (sector_compact _ _ _ _)⟩

theorem C118_stack_tri_prism (L : ℕ) (m1 m2 h1 h2 d y1 y2 : ℝ) (hh1 : 0 < h1) (hh2 : 0 < h2) (hd : d ≠ 0) (hy : y1 ≠ y2)
    (hm : m1 * h2 = m2 * h1) :
    ∃ q q1 q2, triPrism L (m1 + m2) (h1 + h2) d y1 y2 = .ok q ∧ triPrism L m1 h1 d y1 y2 = .ok q1 ∧ triPrism L m2 h2 d y1 y2 = .ok q2 ∧
      ∀ l m, q.get l m = (translate_qlm q1 ![0, 0, -(h2 / 2)]).get l m + (translate_qlm q2 ![0, 0, h1 / 2]).get l m :=
  ⟨_, _, _, C36_tri_prism L _ _ _ _ _ (by linarith) hd hy, C36_tri_prism L _ _ _ _ _ hh1 hd hy,
    C36_tri_prism L _ _ _ _ _ hh2 hd hy, prism_stack L m1 m2 h1 h2 hh1 hh2 hm _ (triangle_compact _ _)⟩

theorem C118_stack_rect_prism (L : ℕ) (m1 m2 h1 h2 a b phic : ℝ) (hh1 : 0 < h1) (hh2 : 0 < h2) (ha : 0 < a) (hb : 0 < b)
    (hm : m1 * h2 = m2 * h1) :
    ∃ q q1 q2, rectPrism L (m1 + m2) (h1 + h2) a b phic = .ok q ∧ rectPrism L m1 h1 a b phic = .ok q1 ∧
      rectPrism L m2 h2 a b phic = .ok q2 ∧
      ∀ l m, q.get l m = (translate_qlm q1 ![0, 0, -(h2 / 2)]).get l m + (translate_qlm q2 ![0, 0, h1 / 2]).get l m :=
  ⟨_, _, _, C36_rect_prism L _ _ _ _ _ (by linarith) ha hb, C36_rect_prism L _ _ _ _ _ hh1 ha hb,
    C36_rect_prism L _ _ _ _ _ hh2 ha hb, prism_stack L m1 m2 h1 h2 hh1 hh2 hm _ (rotated_compact _ _ (rectangle_compact _ _))⟩

theorem C118_stack_ngon_prism (L : ℕ) (m1 m2 h1 h2 a phic : ℝ) (N : ℕ) (hN : 3 ≤ N) (hh1 : 0 < h1) (hh2 : 0 < h2) (ha : 0 < a)
    (hm : m1 * h2 = m2 * h1) :
    ∃ q q1 q2, ngonPrism L (m1 + m2) (h1 + h2) a phic N = .ok q ∧ ngonPrism L m1 h1 a phic N = .ok q1 ∧
      ngonPrism L m2 h2 a phic N = .ok q2 ∧
      ∀ l m, q.get l m = (translate_qlm q1 ![0, 0, -(h2 / 2)]).get l m + (translate_qlm q2 ![0, 0, h1 / 2]).get l m :=
  ⟨_, _, _, C36_ngon_prism L _ _ _ _ _ hN (by linarith) ha, C36_ngon_prism L _ _ _ _ _ hN hh1 ha,
    C36_ngon_prism L _ _ _ _ _ hN hh2 ha,
    prism_stack L m1 m2 h1 h2 hh1 hh2 hm _ (polygon_rotated a phic ▸ rotated_compact _ _ (polygon_compact hN ha))⟩

/-- the hypotheses on the masses are met by unequal pieces -/
example : ∃ q q1 q2, cylinder 4 (1 + 3) 2 2 = .ok q ∧ cylinder 4 1 2 1 = .ok q1 ∧ annulus 4 3 2 1 2 7 Real.pi = .ok q2 ∧
    ∀ l m, q.get l m = q1.get l m + q2.get l m :=
  C118_cylinder_core 4 1 3 2 1 2 7 (by norm_num) (by norm_num) (by norm_num) (by norm_num)

example : ∃ q q1 q2, rectPrism 4 (1 + 2) (3 + 6) 5 7 1 = .ok q ∧ rectPrism 4 1 3 5 7 1 = .ok q1 ∧ rectPrism 4 2 6 5 7 1 = .ok q2 ∧
    ∀ l m, q.get l m = (translate_qlm q1 ![0, 0, -(6 / 2)]).get l m + (translate_qlm q2 ![0, 0, 3 / 2]).get l m :=
  C118_stack_rect_prism 4 1 2 3 6 5 7 1 (by norm_num) (by norm_num) (by norm_num) (by norm_num) (by norm_num)

end Newt
