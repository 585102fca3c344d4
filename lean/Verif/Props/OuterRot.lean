import Verif.Props.Force

/-!
# Property C53: rotation of outer moments
-/

namespace Newt

open Spec

theorem outerMoment_map (f : V3 → V3) (l : ℕ) (m : ℤ) (c : ℤ → ℂ)
    (h : ∀ v, solidO l m (f v) = ∑ n ∈ Finset.Icc (-(l : ℤ)) l, c n * solidO l n v) (A : PtArray) :
    outerMoment (A.map fun p => ⟨p.mass, f p.pos⟩) l m =
      ∑ n ∈ Finset.Icc (-(l : ℤ)) l, c n * outerMoment A l n := by
  induction A with
  | nil => simp [outerMoment]
  | cons p A ih =>
    have e : ∀ (p : Pt) (A : PtArray) (n : ℤ), outerMoment (p :: A) l n = p.mass * solidO l n p.pos + outerMoment A l n := by
      intro p A n; simp [outerMoment]
    rw [List.map_cons, e, ih, h, Finset.mul_sum, ← Finset.sum_add_distrib]
    apply Finset.sum_congr rfl
    intro n _
    rw [e]; ring

theorem solidO_rot (l : ℕ) (a : ℤ) (ha : a.natAbs ≤ l) (alpha beta gamma : ℝ) (v : V3) :
    solidO l a (eul alpha beta gamma v) =
      ∑ b ∈ Finset.Icc (-(l : ℤ)) l, bigD l (-alpha) beta (-gamma) a b * solidO l b v := by
  rw [solidO, eul_modulus, eul, solidS_rot l a ha, map_sum, Finset.sum_div]
  apply Finset.sum_congr rfl
  intro b _
  rw [map_mul, bigD_conj, solidO, mul_div_assoc]

theorem outerMoment_rot (L : ℕ) (A : PtArray) (alpha beta gamma : ℝ) :
    Mom.ofFn L (outerMoment (A.map fun p => ⟨p.mass, eul alpha beta gamma p.pos⟩)) =
      rotM (-alpha) beta (-gamma) (Mom.ofFn L (outerMoment A)) := by
  have h2 := rotM_valid _ (outerMoment_valid L A) (-alpha) beta (-gamma)
  apply Mom.ext_get
  intro l m hl hm
  rw [Mom.get_ofFn _ hl hm]
  by_cases hml : m.natAbs ≤ l
  · rw [rotM_get _ _ _ _ l m hl hml, outerMoment_map (eul alpha beta gamma) l m _ (solidO_rot l m hml alpha beta gamma)]
    apply Finset.sum_congr rfl
    intro n hn
    rw [Finset.mem_Icc] at hn
    rw [Mom.get_ofFn _ hl (by omega)]
  · rw [outerMoment_out _ _ _ (by omega), h2.2 l m hl hm (by omega)]

/-- C53: the outer moments of a rotated array (`gamma` about z, `beta` about y, `alpha` about z) are
obtained from those of the array with `rotate_qlm` called with the angles `(-alpha, beta, -gamma)`. -/
theorem C53_rotate_outer (L : ℕ) (A : PtArray) (alpha beta gamma : ℝ) (hA : OffOrigin A) :
    ∃ (A1 A2 A3 : PtArray),
      rotate_point_array A gamma ![0, 0, 1] = some A1 ∧
      rotate_point_array A1 beta ![0, 1, 0] = some A2 ∧
      rotate_point_array A2 alpha ![0, 0, 1] = some A3 ∧
      rotate_qlm (Qmomentsb L A) (-alpha) beta (-gamma) = some (Qmomentsb L A3) := by
  refine ⟨_, _, _, rotate_some ez_ne _ _, rotate_some ey_ne _ _, rotate_some ez_ne _ _, ?_⟩
  have hcomp : (((A.map fun p => (⟨p.mass, rotF gamma ![0, 0, 1] p.pos⟩ : Pt)).map
      fun p => (⟨p.mass, rotF beta ![0, 1, 0] p.pos⟩ : Pt)).map
      fun p => (⟨p.mass, rotF alpha ![0, 0, 1] p.pos⟩ : Pt)) =
      A.map fun p => ⟨p.mass, eul alpha beta gamma p.pos⟩ := by
    rw [List.map_map, List.map_map]
    apply List.map_congr_left
    intro p _
    simp [rotF_z, rotF_y, eul]
  rw [hcomp, rotate_qlm_rotM, Qmomentsb_closed L A hA, Qmomentsb_closed, outerMoment_rot]
  intro p hp
  obtain ⟨p', hp', rfl⟩ := List.mem_map.1 hp
  intro h
  have h1 := eul_modulus alpha beta gamma p'.pos
  simp only [] at h
  rw [h, (modulus_eq_zero 0).2 rfl] at h1
  exact hA p' hp' ((modulus_eq_zero _).1 h1.symm)

/-- C53: consequently calling `rotate_qlm` on outer moments with the body's own angle about z (as
`Shape.rotate` does for any kind of moments) turns them backwards. -/
theorem C53_inner_convention_turns_backwards (L : ℕ) (A : PtArray) (phi : ℝ) (hA : OffOrigin A) :
    ∃ A', rotate_point_array A (-phi) ![0, 0, 1] = some A' ∧
      rotate_qlm (Qmomentsb L A) phi 0 0 = some (Qmomentsb L A') := by
  obtain ⟨A1, A2, A3, h1, h2, h3, h4⟩ := C53_rotate_outer L A (-phi) 0 0 hA
  rw [neg_neg, neg_zero] at h4
  refine ⟨A3, ?_, h4⟩
  have e1 : A1 = A := by
    rw [rotate_some ez_ne, Option.some.injEq] at h1
    rw [← h1]
    conv_rhs => rw [← List.map_id A]
    apply List.map_congr_left
    intro p _
    rw [rotF_z]
    have : rz 0 p.pos = p.pos := by funext i; fin_cases i <;> simp [rz]
    simp [this]
  have e2 : A2 = A1 := by
    rw [rotate_some ey_ne, Option.some.injEq] at h2
    rw [← h2]
    conv_rhs => rw [← List.map_id A1]
    apply List.map_congr_left
    intro p _
    rw [rotF_y]
    have : ry 0 p.pos = p.pos := by funext i; fin_cases i <;> simp [ry]
    simp [this]
  rw [e2, e1] at h3
  exact h3

/-- non-vacuity of C53 -/
example : OffOrigin [⟨1, ![1, 0, 0]⟩, ⟨2, ![0, 1, 3]⟩] := by
  intro p hp
  simp only [List.mem_cons, List.not_mem_nil, or_false] at hp
  rcases hp with rfl | rfl
  · exact fun h => by simpa using congrFun h 0
  · exact fun h => by simpa using congrFun h 1

end Newt
