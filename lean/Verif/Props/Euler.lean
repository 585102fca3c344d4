import Verif.Spec.Euler
import Verif.Proofs.Euler
import Verif.Proofs.Q2Q
import Verif.Props.OuterRot

/-!
# Property C117: Euler angles
-/

namespace Newt

open Spec

theorem turnFixed_eq (alpha beta gamma : ℝ) (A : PtArray) :
    turnFixed alpha beta gamma A = some (A.map fun p => ⟨p.mass, eul alpha beta gamma p.pos⟩) := by
  rw [turnFixed, rotate_some ez_ne, Option.bind_some, rotate_some ey_ne, Option.bind_some, rotate_some ez_ne,
    List.map_map, List.map_map, Option.some.injEq]
  apply List.map_congr_left
  intro p _
  simp [rotF_z, rotF_y, eul]

theorem turnFixed_iff (a b c a' b' c' : ℝ) :
    (∀ A, turnFixed a b c A = turnFixed a' b' c' A) ↔ ∀ v, eul a b c v = eul a' b' c' v := by
  constructor
  · intro h v
    have := h [⟨1, v⟩]
    rw [turnFixed_eq, turnFixed_eq] at this
    simpa using this
  · intro h A
    rw [turnFixed_eq, turnFixed_eq, funext h]

/-- C117: turning a body about its own axes (`alpha` about its z axis, `beta` about the new place of its y axis, `gamma` about the new
place of its z axis) is turning it about the fixed axes in the opposite order. -/
theorem C117_body_axes (alpha beta gamma : ℝ) (A : PtArray) :
    turnBody alpha beta gamma A = turnFixed alpha beta gamma A := by
  have hr1 := rig_rotF ez_ne alpha
  have h1 : rotF alpha ![0, 0, 1] ![0, 1, 0] ≠ 0 := by
    rw [Ne, rotF_eq_zero ez_ne]; exact ey_ne
  have h2 : rotF beta (rotF alpha ![0, 0, 1] ![0, 1, 0]) (rotF alpha ![0, 0, 1] ![0, 0, 1]) ≠ 0 := by
    rw [Ne, rotF_eq_zero h1, rotF_eq_zero ez_ne]; exact ez_ne
  rw [turnFixed_eq, turnBody, rotate_some ez_ne, Option.bind_some, rotate_some ez_ne, Option.bind_some]
  simp only [List.map_cons, List.map_nil, List.getElem?_cons_zero, Option.bind_some]
  rw [rotate_some h1, Option.bind_some, rotate_some h1, Option.bind_some]
  simp only [List.map_cons, List.map_nil, List.getElem?_cons_succ, List.getElem?_cons_zero, Option.bind_some]
  rw [rotate_some h2, Option.some.injEq, List.map_map, List.map_map]
  apply List.map_congr_left
  intro p _
  simp only [Function.comp]
  rw [hr1.conj, hr1.conj, (hr1.comp (rig_rotF ey_ne beta)).conj, rotF_z, rotF_y, rotF_z]
  rfl

/-- C117: the moments of a body turned about its own axes. -/
theorem C117_body_axes_moments (L : ℕ) (A : PtArray) (alpha beta gamma : ℝ) (hA : ¬ OffAfterOrigin A) :
    ∃ A', turnBody alpha beta gamma A = some A' ∧
      (qmoments L A).bind (fun q => rotate_qlm q alpha beta gamma) = qmoments L A' ∧
      (OffOrigin A → rotate_qlm (Qmomentsb L A) (-alpha) beta (-gamma) = some (Qmomentsb L A')) := by
  refine ⟨_, (C117_body_axes _ _ _ _).trans (turnFixed_eq _ _ _ _), ?_, fun hO => ?_⟩
  · obtain ⟨q, q', A1, A2, A3, h0, h1, h2, h3, h4, h5⟩ := C25_rotate_qmoments L A alpha beta gamma hA
    have h := turnFixed_eq alpha beta gamma A
    rw [turnFixed, h1, Option.bind_some, h2, Option.bind_some, h3, Option.some.injEq] at h
    rw [h0, Option.bind_some, h5, ← h4, h]
  · obtain ⟨A1, A2, A3, h1, h2, h3, h4⟩ := C53_rotate_outer L A alpha beta gamma hO
    have h := turnFixed_eq alpha beta gamma A
    rw [turnFixed, h1, Option.bind_some, h2, Option.bind_some, h3, Option.some.injEq] at h
    rw [h4, h]

/-- C117: every sequence of turns about any axes is one turn with Euler angles, `beta` between `0` and `pi`, the same for every array. -/
theorem C117_any_orientation (ss : List (ℝ × V3)) (hs : ∀ s ∈ ss, s.2 ≠ 0) :
    ∃ alpha beta gamma, 0 ≤ beta ∧ beta ≤ Real.pi ∧ ∀ A, turnAll ss A = turnFixed alpha beta gamma A := by
  have key : ∀ ss : List (ℝ × V3), (∀ s ∈ ss, s.2 ≠ 0) →
      ∃ f, Rig f ∧ ∀ A, turnAll ss A = some (A.map fun p => ⟨p.mass, f p.pos⟩) := by
    intro ss
    induction ss with
    | nil => intro _; exact ⟨fun x => x, rig_id, fun A => by rw [turnAll]; simp⟩
    | cons s ss ih =>
      intro hs
      obtain ⟨f, hf, hA⟩ := ih fun s' hs' => hs s' (List.mem_cons_of_mem _ hs')
      have h0 := hs s List.mem_cons_self
      refine ⟨fun x => f (rotF s.1 s.2 x), hf.comp (rig_rotF h0 _), fun A => ?_⟩
      rw [turnAll, rotate_some h0, Option.bind_some, hA, List.map_map]
      rfl
  obtain ⟨f, hf, hA⟩ := key ss hs
  obtain ⟨alpha, beta, gamma, h0, h1, rfl⟩ := hf.euler
  exact ⟨alpha, beta, gamma, h0, h1, fun A => by rw [hA, turnFixed_eq]⟩

/-- C117: so one call of `rotate_qlm` gives the moments of a body brought to any orientation by any sequence of turns. -/
theorem C117_any_orientation_moments (ss : List (ℝ × V3)) (hs : ∀ s ∈ ss, s.2 ≠ 0) :
    ∃ alpha beta gamma, ∀ (L : ℕ) (A : PtArray), ¬ OffAfterOrigin A →
      ∃ A', turnAll ss A = some A' ∧ (qmoments L A).bind (fun q => rotate_qlm q alpha beta gamma) = qmoments L A' ∧
        (OffOrigin A → rotate_qlm (Qmomentsb L A) (-alpha) beta (-gamma) = some (Qmomentsb L A')) := by
  obtain ⟨alpha, beta, gamma, -, -, h⟩ := C117_any_orientation ss hs
  refine ⟨alpha, beta, gamma, fun L A hA => ?_⟩
  obtain ⟨A', h1, h2, h3⟩ := C117_body_axes_moments L A alpha beta gamma hA
  exact ⟨A', by rw [h, ← C117_body_axes, h1], h2, h3⟩

/-- C117: two triples of angles turn every array alike exactly when `rotate_qlm` treats every moment array alike. -/
theorem C117_same_rotation (L : ℕ) (hL : 1 ≤ L) (a b c a' b' c' : ℝ) :
    (∀ A, turnFixed a b c A = turnFixed a' b' c' A) ↔
      ∀ q : Mom L, rotate_qlm q a b c = rotate_qlm q a' b' c' := by
  rw [turnFixed_iff]
  constructor
  · intro h q
    rw [rotate_qlm_rotM, rotate_qlm_rotM, rotM_of_eul h]
  · intro h v
    have hS : ∀ m : ℤ, m.natAbs ≤ 1 → solidS 1 m (eul a b c v) = solidS 1 m (eul a' b' c' v) := by
      intro m hm
      have h1 := h (Mom.ofFn L fun l m => solidS l m v)
      rw [rotate_qlm_rotM, rotate_qlm_rotM, Option.some.injEq] at h1
      have h2 := congrArg (fun q => Mom.get q 1 m) h1
      simp only [rotM_get _ _ _ _ 1 m hL hm] at h2
      rw [eul, eul, solidS_rot 1 m hm, solidS_rot 1 m hm]
      have e : ∀ (a b c : ℝ), ∑ n ∈ Finset.Icc (-((1 : ℕ) : ℤ)) (1 : ℕ), bigD 1 a b c m n *
          (Mom.ofFn L fun l m => solidS l m v).get 1 n =
          ∑ n ∈ Finset.Icc (-((1 : ℕ) : ℤ)) (1 : ℕ), bigD 1 a b c m n * solidS 1 n v := by
        intro a b c
        apply Finset.sum_congr rfl; intro n hn
        rw [Finset.mem_Icc] at hn
        rw [Mom.get_ofFn _ hL (by omega)]
      rw [← e, ← e]
      exact h2
    have hN : ∀ m : ℤ, (Nlm 1 m : ℂ) ≠ 0 := fun m => by exact_mod_cast Nlm_ne 1 m
    have h0 := hS 0 (by norm_num)
    have h1 := hS 1 (by norm_num)
    rw [solidS, solidS] at h0 h1
    have g0 := mul_left_cancel₀ (hN 0) h0
    have g1 := mul_left_cancel₀ (hN 1) h1
    rw [Rsol_one_zero, Rsol_one_zero] at g0
    rw [(Rsol_one _).1, (Rsol_one _).1] at g1
    have r := congrArg Complex.re g1
    have i := congrArg Complex.im g1
    simp at r i
    have z : eul a b c v 2 = eul a' b' c' v 2 := by exact_mod_cast g0
    funext j
    fin_cases j
    · simpa using by linarith
    · simpa using by linarith
    · exact z

/-- C117: two successive calls of `rotate_qlm` are one call, with angles that do not depend on the moments and that describe the two
successive turns of the points. -/
theorem C117_compose (a b c a' b' c' : ℝ) :
    ∃ alpha beta gamma, 0 ≤ beta ∧ beta ≤ Real.pi ∧
      (∀ A, (turnFixed a b c A).bind (turnFixed a' b' c') = turnFixed alpha beta gamma A) ∧
      ∀ (L : ℕ) (q : Mom L), (rotate_qlm q a b c).bind (fun q' => rotate_qlm q' a' b' c') =
        rotate_qlm q alpha beta gamma := by
  obtain ⟨alpha, beta, gamma, h0, h1, h⟩ := ((rig_eul a' b' c').comp (rig_eul a b c)).euler
  have h' := fun v => congrFun h v
  refine ⟨alpha, beta, gamma, h0, h1, fun A => ?_, fun L q => ?_⟩
  · rw [turnFixed_eq, Option.bind_some, turnFixed_eq, turnFixed_eq, List.map_map, ← h]
    rfl
  · rw [rotate_qlm_rotM, Option.bind_some, rotate_qlm_rotM, rotate_qlm_rotM, rotM_comp h']

/-- C117: the product of two matrices of `wignerDl` is the matrix of the composed turn. -/
theorem C117_wigner_product (L : ℕ) (hL : 1 ≤ L) (a b c a' b' c' alpha beta gamma : ℝ)
    (h : ∀ A, (turnFixed a b c A).bind (turnFixed a' b' c') = turnFixed alpha beta gamma A) :
    ∃ D D' D'', wignerDl L a b c = some D ∧ wignerDl L a' b' c' = some D' ∧ wignerDl L alpha beta gamma = some D'' ∧
      ∀ (l : ℕ) (m n : ℤ), l ≤ L → m.natAbs ≤ l → n.natAbs ≤ l →
        ∑ k ∈ Finset.Icc (-(l : ℤ)) l, D'.getD l 0 m k * D.getD l 0 k n = D''.getD l 0 m n := by
  have hv : ∀ v, eul a' b' c' (eul a b c v) = eul alpha beta gamma v := by
    intro v
    have := h [⟨1, v⟩]
    rw [turnFixed_eq, Option.bind_some, turnFixed_eq, turnFixed_eq] at this
    simpa using this
  obtain ⟨D, hD, -, gD⟩ := wignerDl_some L hL a b c
  obtain ⟨D', hD', -, gD'⟩ := wignerDl_some L hL a' b' c'
  obtain ⟨D'', hD'', -, gD''⟩ := wignerDl_some L hL alpha beta gamma
  refine ⟨D, D', D'', hD, hD', hD'', fun l m n hl hm hn => ?_⟩
  rw [gD'' l m n hl hm hn, ← bigD_comp hv l m n hm hn]
  apply Finset.sum_congr rfl; intro k hk
  rw [Finset.mem_Icc] at hk
  rw [gD' l m k hl hm (by omega), gD l k n hl (by omega) hn]

/-- the equivalence is not empty: with `beta = 0` only `alpha + gamma` matters ... -/
example (t : ℝ) (L : ℕ) (q : Mom L) : rotate_qlm q t 0 0 = rotate_qlm q 0 0 t := by
  have h : ∀ v, eul t 0 0 v = eul 0 0 t v := by
    intro v; funext i; fin_cases i <;> simp [eul, rz, ry]
  rw [rotate_qlm_rotM, rotate_qlm_rotM, rotM_of_eul h]

/-- ... and some triples differ -/
example : ¬ ∀ q : Mom 1, rotate_qlm q 0 (Real.pi / 2) 0 = rotate_qlm q 0 0 0 := by
  rw [← C117_same_rotation 1 le_rfl, turnFixed_iff]
  intro h
  have := congrFun (h ![1, 0, 0]) 0
  simp [eul, rz, ry] at this

/-- sequences of turns about oblique axes meet the hypothesis -/
example : ∃ alpha beta gamma, 0 ≤ beta ∧ beta ≤ Real.pi ∧
    ∀ A, turnAll [(1, ![1, 2, 3]), (-2, ![0, 1, 1])] A = turnFixed alpha beta gamma A :=
  C117_any_orientation _ (by
    intro s hs
    simp only [List.mem_cons, List.not_mem_nil, or_false] at hs
    rcases hs with rfl | rfl
    · intro h; simpa using congrFun h 0
    · intro h; simpa using congrFun h 1)

end Newt
