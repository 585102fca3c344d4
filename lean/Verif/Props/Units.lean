import Verif.Spec.Units
import Verif.Props.Glib
import Verif.Props.Pg2Multi
import Verif.Props.Translations
import Verif.Props.Rotations
import Verif.Props.Force
import Verif.Props.Qlm
import Verif.Proofs.TransRecurs3
import Mathlib.MeasureTheory.Measure.Haar.NormedSpace

/-!
# C100: a change of the unit of length
-/

namespace Newt

open Spec
open scoped Pointwise

/-! ## Point masses -/

theorem apart_scalePos {s : ℝ} (hs : s ≠ 0) (A B : PtArray) :
    Apart (scalePos s A) (scalePos s B) ↔ Apart A B := by
  simp only [Apart, scalePos, List.mem_map, forall_exists_index, and_imp,
    forall_apply_eq_imp_iff₂, ne_eq]
  constructor
  · intro h a ha b hb e; exact h a ha b hb (by rw [e])
  · intro h a ha b hb e; exact h a ha b hb (smul_right_injective V3 hs e)

theorem tot_scalePos (w w' : Pt → Pt → ℝ) (A B : PtArray) (s : ℝ) (hs : s ≠ 0)
    (hw : ∀ p q : Pt, w' ⟨p.mass, s • p.pos⟩ ⟨q.mass, s • q.pos⟩ = w p q / s ^ 3) :
    totF w' (scalePos s A) (scalePos s B) = (1 / s ^ 2 : ℝ) • totF w A B ∧
    totT w' (scalePos s A) (scalePos s B) = (1 / s : ℝ) • totT w A B := by
  have e2 : ∀ x : ℝ, x / s ^ 3 * s = 1 / s ^ 2 * x := fun x => by field_simp
  have e1 : ∀ x : ℝ, s * (1 / s ^ 2 * x) = 1 / s * x := fun x => by field_simp
  simp only [totF, totT_eq, scalePos, List.map_map]
  constructor
  · rw [← smul_list_sum, List.map_map]
    congr 1
    apply List.map_congr_left; intro a _
    simp only [Function.comp]
    rw [← smul_list_sum, List.map_map]
    congr 1
    apply List.map_congr_left; intro b _
    simp only [Function.comp, hw]
    rw [← smul_sub, smul_smul, e2, mul_smul]
  · rw [← smul_list_sum, List.map_map]
    congr 1
    apply List.map_congr_left; intro a _
    simp only [Function.comp]
    rw [← smul_list_sum, List.map_map]
    congr 1
    apply List.map_congr_left; intro b _
    simp only [Function.comp, hw]
    rw [← smul_sub, smul_smul, e2, map_smul, map_smul, LinearMap.smul_apply, map_smul, smul_smul,
      smul_smul, mul_comm _ s, e1]

theorem gW_scalePos {s : ℝ} (hs : 0 < s) (p q : Pt) :
    gW ⟨p.mass, s • p.pos⟩ ⟨q.mass, s • q.pos⟩ = gW p q / s ^ 3 := by
  simp only [gW]
  rw [← smul_sub, modulus_smul', abs_of_pos hs, mul_pow, div_div, mul_comm (s ^ 3)]

/-- C100: in a unit of length `s` times smaller, the Newtonian force is divided by `s^2` and the
torque by `s`; undefined results stay undefined. -/
theorem C100_gravity (A B : PtArray) (s : ℝ) (hs : 0 < s) :
    point_matrix_gravity (scalePos s A) (scalePos s B) =
      (point_matrix_gravity A B).map fun r => ((1 / s ^ 2 : ℝ) • r.1, (1 / s : ℝ) • r.2) := by
  by_cases h : Apart A B
  · rw [pmg_some h, pmg_some ((apart_scalePos hs.ne' A B).2 h), Option.map_some]
    obtain ⟨h1, h2⟩ := tot_scalePos gW gW A B s hs.ne' (gW_scalePos hs)
    rw [h1, h2]
  · rw [pmg_none h, pmg_none (fun h' => h ((apart_scalePos hs.ne' A B).1 h'))]; rfl

/-- C100: the same for the Yukawa interaction, the range being a length too. -/
theorem C100_yukawa (A B : PtArray) (s : ℝ) (hs : 0 < s) (alpha lmbd : ℝ) (hl : lmbd ≠ 0) :
    point_matrix_yukawa (scalePos s A) (scalePos s B) alpha (s * lmbd) =
      (point_matrix_yukawa A B alpha lmbd).map fun r =>
        ((1 / s ^ 2 : ℝ) • r.1, (1 / s : ℝ) • r.2) := by
  by_cases h : Apart A B
  · rw [pmy_some hl h, pmy_some (mul_ne_zero hs.ne' hl) ((apart_scalePos hs.ne' A B).2 h),
      Option.map_some]
    obtain ⟨h1, h2⟩ := tot_scalePos (yW alpha lmbd) (yW alpha (s * lmbd)) A B s hs.ne' fun p q => by
      simp only [yW]
      rw [← smul_sub, modulus_smul', abs_of_pos hs,
        show -(s * modulus (q.pos - p.pos)) / (s * lmbd) = -modulus (q.pos - p.pos) / lmbd by
          rw [← mul_neg, mul_div_mul_left _ _ hs.ne']]
      have : s ≠ 0 := hs.ne'
      by_cases hm : modulus (q.pos - p.pos) = 0
      · simp [hm]
      · field_simp
    rw [h1, h2]
  · rw [pmy_none h, pmy_none (fun h' => h ((apart_scalePos hs.ne' A B).1 h'))]; rfl

/-- C100: moving and turning arrays commute with the change of unit. -/
theorem C100_move (A : PtArray) (s : ℝ) (d : V3) (t : ℝ) (v : V3) :
    translate_point_array (scalePos s A) (s • d) = scalePos s (translate_point_array A d) ∧
    rotate_point_array (scalePos s A) t v = (rotate_point_array A t v).map (scalePos s) := by
  constructor
  · simp [translate_point_array, scalePos, translate_point, smul_add]
  · rw [rotate_point_array, rotate_point_array]
    cases h : rotMatrix t v with
    | none =>
      cases A with
      | nil => rfl
      | cons p A =>
        rw [mapM_opt_none _ _ ⟨⟨p.mass, s • p.pos⟩, by simp [scalePos], rfl⟩,
          mapM_opt_none _ _ ⟨p, by simp, rfl⟩]
        rfl
    | some R =>
      have hm : ∀ C : PtArray, (C.mapM fun p => (some R).map fun R => (⟨p.mass, R.mulVec p.pos⟩ : Pt)) =
          some (C.map fun p => ⟨p.mass, R.mulVec p.pos⟩) :=
        fun C => mapM_opt_some _ _ C (fun _ _ => rfl)
      rw [hm, hm, Option.map_some]
      simp [scalePos, Matrix.mulVec_smul]

/-! ## Moments of arrays -/

theorem scalePos_originLast {s : ℝ} (hs : s ≠ 0) {A : PtArray} (h : OriginLast A) : OriginLast (scalePos s A) := by
  obtain ⟨B, O, rfl, hB, hO⟩ := h
  refine ⟨scalePos s B, scalePos s O, by simp [scalePos], ?_, ?_⟩
  · exact scalePos_off hs hB
  · intro p hp
    simp only [scalePos, List.mem_map] at hp
    obtain ⟨q, hq, rfl⟩ := hp
    simp [hO q hq]

theorem scalePos_inv {s : ℝ} (hs : s ≠ 0) (A : PtArray) : scalePos s⁻¹ (scalePos s A) = A := by
  simp [scalePos, Function.comp_def, smul_smul, inv_mul_cancel₀ hs]

/-- C100: inner moments of a rescaled array; a call that fails also fails in the other unit. -/
theorem C100_qmoments (L : ℕ) (A : PtArray) (s : ℝ) (hs : s ≠ 0) :
    qmoments L (scalePos s A) = (qmoments L A).map (unitsInner s) := by
  by_cases h : L = 0 ∨ OriginLast A
  · rw [qmoments_closed L _ h, qmoments_closed L _ (h.imp_right (scalePos_originLast hs)), Option.map_some]
    congr 1
    apply Mom.ext_get; intro l m hl hm
    rw [unitsInner, Mom.get_ofFn _ hl hm, Mom.get_ofFn _ hl hm, Mom.get_ofFn _ hl hm,
      innerMoment_scalePos]
  · rw [not_or] at h
    rw [qmoments_none L A h.1 h.2, qmoments_none L _ h.1, Option.map_none]
    intro hc
    have := scalePos_originLast (inv_ne_zero hs) hc
    rw [scalePos_inv hs] at this
    exact h.2 this

/-- C100: outer moments of a rescaled array. -/
theorem C100_Qmomentsb (L : ℕ) (A : PtArray) (s : ℝ) (hs : 0 < s) :
    Qmomentsb L (scalePos s A) = unitsOuter s (Qmomentsb L A) := by
  by_cases hA : OffOrigin A
  · rw [Qmomentsb_closed L _ hA, Qmomentsb_closed L _ (scalePos_off hs.ne' hA)]
    apply Mom.ext_get; intro l m hl hm
    rw [unitsOuter, Mom.get_ofFn _ hl hm, Mom.get_ofFn _ hl hm, Mom.get_ofFn _ hl hm,
      outerMoment_scalePos s hs]
  · have hA' : ¬ OffOrigin (scalePos s A) := by
      intro hc
      have := scalePos_off (inv_ne_zero hs.ne') hc
      rw [scalePos_inv hs.ne'] at this
      exact hA this
    rw [Qmomentsb, if_pos ((anyAtOrigin_iff _).2 hA'), Qmomentsb, if_pos ((anyAtOrigin_iff _).2 hA)]
    apply Mom.ext_get; intro l m hl hm
    rw [unitsOuter, Mom.get_ofFn _ hl hm, Mom.get_ofFn _ hl hm, Mom.get_ofFn _ hl hm, zero_div]

/-! ## Moment arrays -/

theorem unitsInner_get (s : ℝ) {L : ℕ} (q : Mom L) {l : ℕ} {m : ℤ} (hl : l ≤ L) (hm : m.natAbs ≤ L) :
    (unitsInner s q).get l m = (s : ℂ) ^ l * q.get l m := Mom.get_ofFn _ hl hm

theorem unitsOuter_get (s : ℝ) {L : ℕ} (q : Mom L) {l : ℕ} {m : ℤ} (hl : l ≤ L) (hm : m.natAbs ≤ L) :
    (unitsOuter s q).get l m = q.get l m / (s : ℂ) ^ (l + 1) := Mom.get_ofFn _ hl hm

theorem unitsInner_valid (s : ℝ) {L : ℕ} (q : Mom L) (hq : Valid q) : Valid (unitsInner s q) := by
  constructor
  · intro l m hl hm
    rw [unitsInner_get s q hl (by simpa using hm), unitsInner_get s q hl hm, hq.1 l m hl hm, map_mul,
      map_pow, Complex.conj_ofReal]; ring
  · intro l m hl hm h
    rw [unitsInner_get s q hl hm, hq.2 l m hl hm h, mul_zero]

theorem unitsOuter_valid (s : ℝ) {L : ℕ} (q : Mom L) (hq : Valid q) : Valid (unitsOuter s q) := by
  constructor
  · intro l m hl hm
    rw [unitsOuter_get s q hl (by simpa using hm), unitsOuter_get s q hl hm, hq.1 l m hl hm, map_div₀,
      map_pow, Complex.conj_ofReal]; ring
  · intro l m hl hm h
    rw [unitsOuter_get s q hl hm, hq.2 l m hl hm h, zero_div]

/-- C100: `translate_qlm`. -/
theorem C100_translate_qlm {L : ℕ} (q : Mom L) (hq : Valid q) (d : V3) (s : ℝ) :
    translate_qlm (unitsInner s q) (s • d) = unitsInner s (translate_qlm q d) := by
  rw [translate_qlm_closed _ (unitsInner_valid s q hq), translate_qlm_closed q hq]
  apply Mom.ext_get; intro l m hl hm
  rw [unitsInner_get s _ hl hm, Mom.get_ofFn _ hl hm, Mom.get_ofFn _ hl hm, trInner, trInner,
    mul_left_comm]
  congr 1
  rw [Finset.mul_sum]
  apply Finset.sum_congr rfl; intro k hk
  rw [Finset.mul_sum]
  apply Finset.sum_congr rfl; intro n hn
  rw [Finset.mem_range] at hk
  rw [Finset.mem_Icc] at hn
  rw [unitsInner_get s q (by omega) (by omega), Rsol_smul]
  obtain ⟨j, rfl⟩ : ∃ j, l = k + j := ⟨l - k, by omega⟩
  rw [Nat.add_sub_cancel_left, pow_add]; ring

/-- C100: `translate_Qlmb`. -/
theorem C100_translate_Qlmb {L : ℕ} (Q : Mom L) (hQ : Valid Q) (d : V3) (s : ℝ) (hs : s ≠ 0) :
    translate_Qlmb (unitsOuter s Q) (s • d) = unitsOuter s (translate_Qlmb Q d) := by
  have hs' : (s : ℂ) ≠ 0 := by exact_mod_cast hs
  rw [translate_Qlmb_closed _ (unitsOuter_valid s Q hQ), translate_Qlmb_closed Q hQ]
  apply Mom.ext_get; intro l m hl hm
  rw [unitsOuter_get s _ hl hm, Mom.get_ofFn _ hl hm, Mom.get_ofFn _ hl hm, trOuter, trOuter]
  split_ifs with h
  · rw [mul_div_assoc, Finset.sum_div]
    congr 1
    apply Finset.sum_congr rfl; intro k hk
    rw [Finset.sum_div]
    apply Finset.sum_congr rfl; intro n hn
    rw [Finset.mem_Icc] at hk hn
    rw [unitsOuter_get s Q (by omega) (by omega), ← smul_neg, Rsol_smul]
    obtain ⟨j, rfl⟩ : ∃ j, k = l + j := ⟨k - l, by omega⟩
    rw [Nat.add_sub_cancel_left, show l + j + 1 = j + (l + 1) by ring, pow_add (s : ℂ) j]
    field_simp
  · rw [zero_div]

theorem fO_smul (j : ℕ) (c : ℤ) (s : ℝ) (hs : 0 < s) (d : V3) :
    fO j c (s • d) = fO j c d / (s : ℂ) ^ (j + 1) := by
  have hs' : (s : ℂ) ≠ 0 := by exact_mod_cast hs.ne'
  simp only [fO, Rsol_smul, modulus_smul', abs_of_pos hs, map_mul, map_pow, Complex.conj_ofReal]
  push_cast
  rw [mul_pow, show 2 * j + 1 = j + (j + 1) by ring, pow_add (s : ℂ)]
  field_simp

/-- C100: `translate_q2Q`. -/
theorem C100_translate_q2Q {L : ℕ} (q : Mom L) (d : V3) (hd : d ≠ 0) (s : ℝ) (hs : 0 < s) :
    translate_q2Q (unitsInner s q) (s • d) = (translate_q2Q q d).map (unitsOuter s) := by
  have hs' : (s : ℂ) ≠ 0 := by exact_mod_cast hs.ne'
  rw [translate_q2Q_closed _ _ (smul_ne_zero hs.ne' hd), translate_q2Q_closed q d hd, Option.map_some]
  congr 1
  apply Mom.ext_get; intro l m hl hm
  rw [unitsOuter_get s _ hl hm, Mom.get_ofFn _ hl hm, Mom.get_ofFn _ hl hm, trQ, trQ]
  split_ifs with h
  · rw [mul_div_assoc, Finset.sum_div]
    congr 1
    apply Finset.sum_congr rfl; intro k hk
    rw [Finset.sum_div]
    apply Finset.sum_congr rfl; intro n hn
    rw [Finset.mem_range] at hk
    rw [Finset.mem_Icc] at hn
    rw [unitsInner_get s q (by omega) (by omega), fO_smul _ _ s hs,
      show l + k + 1 = k + (l + 1) by ring, pow_add (s : ℂ) k]
    field_simp
  · rw [zero_div]

/-- C100: turning moments commutes with the change of unit (inner and outer arrays). -/
theorem C100_rotate_qlm {L : ℕ} (q : Mom L) (alpha beta gamma s : ℝ) :
    rotate_qlm (unitsInner s q) alpha beta gamma = (rotate_qlm q alpha beta gamma).map (unitsInner s) ∧
    rotate_qlm (unitsOuter s q) alpha beta gamma = (rotate_qlm q alpha beta gamma).map (unitsOuter s) := by
  rw [rotate_qlm_closed, rotate_qlm_closed, rotate_qlm_closed, Option.map_some, Option.map_some]
  constructor
  · congr 1
    apply Mom.ext_get; intro l m hl hm
    rw [unitsInner_get s _ hl hm, Mom.get_ofFn _ hl hm, Mom.get_ofFn _ hl hm]
    split_ifs
    · rw [Finset.mul_sum]
      apply Finset.sum_congr rfl; intro k hk
      rw [Finset.mem_Icc] at hk
      rw [unitsInner_get s q hl (by omega)]; ring
    · rw [unitsInner_get s q hl hm]
  · congr 1
    apply Mom.ext_get; intro l m hl hm
    rw [unitsOuter_get s _ hl hm, Mom.get_ofFn _ hl hm, Mom.get_ofFn _ hl hm]
    split_ifs
    · rw [Finset.sum_div]
      apply Finset.sum_congr rfl; intro k hk
      rw [Finset.mem_Icc] at hk
      rw [unitsOuter_get s q hl (by omega)]; ring
    · rw [unitsOuter_get s q hl hm]

/-! ## Forces and torques from moments -/

theorem pairSum_units {L : ℕ} (q Q : Mom L) (s : ℝ) (hs : s ≠ 0) :
    pairSum (unitsInner s q) (unitsOuter s Q) = pairSum q Q / s := by
  have hs' : (s : ℂ) ≠ 0 := by exact_mod_cast hs
  rw [pairSum, pairSum, Finset.sum_div]
  apply Finset.sum_congr rfl; intro l hl
  rw [Finset.sum_div]
  apply Finset.sum_congr rfl; intro m hm
  rw [Finset.mem_range] at hl
  rw [Finset.mem_Icc] at hm
  rw [unitsInner_get s q (by omega) (by omega), unitsOuter_get s Q (by omega) (by omega), pow_succ]
  have : (2 * (l : ℂ) + 1) ≠ 0 := by exact_mod_cast (by omega : 2 * l + 1 ≠ 0)
  field_simp

/-- C100: the force computed from the moments is divided by `s^2`. -/
theorem C100_multipole_force {L : ℕ} (q Q : Mom L) (hq : Valid q) (hQ : Valid Q) (d : V3) (G s : ℝ)
    (hs : 0 < s) :
    multipole_force (unitsInner s q) (unitsOuter s Q) (s * d 0) (s * d 1) (s * d 2) G =
      (multipole_force q Q (d 0) (d 1) (d 2) G).map fun F i => F i / (s : ℂ) ^ 2 := by
  have hs' : (s : ℂ) ≠ 0 := by exact_mod_cast hs.ne'
  by_cases h : 1 ≤ L ∨ d ≠ 0
  · obtain ⟨F, f, E, a1, a2, a3, a4⟩ := C33_force_is_gradient q Q hq hQ d G h
    obtain ⟨F', f', E', b1, b2, b3, b4⟩ := C33_force_is_gradient _ _ (unitsInner_valid s q hq)
      (unitsOuter_valid s Q hQ) (s • d) G (h.imp_right (smul_ne_zero hs.ne'))
    simp only [Pi.smul_apply, smul_eq_mul] at b1 b4
    rw [a1, b1, Option.map_some, Option.some.injEq]
    funext i
    have e : ∀ u, E' (s • u) = E u / s := by
      intro u
      rw [← Complex.ofReal_inj, b3, C100_translate_qlm q hq, multipoleEnergy, pairSum_units _ _ s hs.ne']
      rw [Complex.ofReal_div, a3, multipoleEnergy]; push_cast; ring
    have e2 : (fun t => E' (Function.update (s • d) i t)) =
        fun t => E (Function.update d i (s⁻¹ * t)) / s := by
      funext t
      rw [← e]
      congr 1
      funext j
      by_cases hj : j = i
      · subst hj; simp [hs.ne']
      · simp [hj]
    have h1 := b4 i
    rw [e2] at h1
    have h2 : HasDerivAt (fun t => E (Function.update d i (s⁻¹ * t)) / s) (-f i * s⁻¹ / s) (s * d i) := by
      have h3 : HasDerivAt (fun t : ℝ => s⁻¹ * t) s⁻¹ (s * d i) := by
        simpa using (hasDerivAt_id (s * d i)).const_mul s⁻¹
      have h4 := a4 i
      rw [show d i = s⁻¹ * (s * d i) by field_simp] at h4
      exact (h4.comp (s * d i) h3).div_const s
    have h5 := h1.unique h2
    rw [b2, a2, show f' i = f i / s ^ 2 by
      have : f' i = f i * s⁻¹ / s := by linear_combination -h5
      rw [this]; field_simp]
    push_cast; rfl
  · have h' : L = 0 ∧ d = 0 := by
      constructor
      · by_contra hL; exact h (Or.inl (by omega))
      · by_contra hd; exact h (Or.inr hd)
    obtain ⟨hL, hd⟩ := h'
    rw [(C33_fails_iff _ _ _ _ _ _).1.2 (by simp [hL, hd]), (C33_fails_iff _ _ _ _ _ _).1.2 (by simp [hL, hd])]
    rfl

/-- C100: every torque amplitude `torque_lm` returns is divided by `s`. -/
theorem C100_torque_lm {L : ℕ} (q Q : Mom L) (G s : ℝ) (hs : s ≠ 0) :
    (∀ (l : ℕ) (m : ℤ), l ≤ L → m.natAbs ≤ L →
      (torque_lm (unitsInner s q) (unitsOuter s Q) G).nlm.get l m = (torque_lm q Q G).nlm.get l m / s) ∧
    (torque_lm (unitsInner s q) (unitsOuter s Q) G).nc = (torque_lm q Q G).nc.map (· / (s : ℂ)) ∧
    (torque_lm (unitsInner s q) (unitsOuter s Q) G).ns = (torque_lm q Q G).ns.map (· / (s : ℂ)) := by
  have hs' : (s : ℂ) ≠ 0 := by exact_mod_cast hs
  have h0 : ∀ (l : ℕ) (m : ℤ), l ≤ L → m.natAbs ≤ L →
      (torque_lm (unitsInner s q) (unitsOuter s Q) G).nlm.get l m = (torque_lm q Q G).nlm.get l m / s := by
    intro l m hl hm
    rw [torque_lm, torque_lm, torqueOut, torqueOut]
    simp only
    rw [Mom.get_ofFn _ hl hm, Mom.get_ofFn _ hl hm, unitsInner_get s q hl hm, unitsOuter_get s Q hl hm,
      pow_succ]
    field_simp
  have h1 : ∀ m : ℤ, m.natAbs ≤ L → colSum (torque_lm (unitsInner s q) (unitsOuter s Q) G).nlm m =
      colSum (torque_lm q Q G).nlm m / s := by
    intro m hm
    rw [colSum, colSum, Finset.sum_div]
    apply Finset.sum_congr rfl; intro l hl
    rw [Finset.mem_range] at hl
    exact h0 l m (by omega) hm
  refine ⟨h0, ?_, ?_⟩
  · show (List.range (L + 1)).map _ = ((List.range (L + 1)).map _).map _
    rw [List.map_map]
    apply List.map_congr_left; intro k hk
    rw [List.mem_range] at hk
    have a := h1 k (by omega)
    have b := h1 (-(k : ℤ)) (by omega)
    simp only [Function.comp, torque_lm, torqueOut] at a b ⊢
    rw [a, b]; ring
  · show (List.range (L + 1)).map _ = ((List.range (L + 1)).map _).map _
    rw [List.map_map]
    apply List.map_congr_left; intro k hk
    rw [List.mem_range] at hk
    have a := h1 k (by omega)
    have b := h1 (-(k : ℤ)) (by omega)
    simp only [Function.comp, torque_lm, torqueOut] at a b ⊢
    rw [a, b]; ring

/-! ## Solids -/

open MeasureTheory in
/-- A uniform body grown by the factor `s`. -/
theorem uniformMoment_grow (mass : ℝ) {S S' : Set V3} {s : ℝ} (hs : 0 < s)
    (hS : ∀ v : V3, v ∈ S ↔ s • v ∈ S') (l : ℕ) (m : ℤ) :
    uniformMoment mass S' l m = (s : ℂ) ^ l * uniformMoment mass S l m := by
  have hS' : S' = s • S := by
    ext v
    rw [Set.mem_smul_set_iff_inv_smul_mem₀ hs.ne', hS, smul_inv_smul₀ hs.ne']
  have hs' : (s : ℂ) ≠ 0 := by exact_mod_cast hs.ne'
  have h1 := Measure.setIntegral_comp_smul_of_pos volume (solidS l m) S hs
  have h2 : ∀ v : V3, solidS l m (s • v) = (s : ℂ) ^ l * solidS l m v := fun v => by
    rw [solidS, solidS, Rsol_smul]; ring
  simp only [h2, Module.finrank_fin_fun, integral_const_mul] at h1
  have h3 : ∫ v in s • S, solidS l m v = (s : ℂ) ^ 3 * ((s : ℂ) ^ l * ∫ v in S, solidS l m v) := by
    rw [h1, Complex.real_smul]; push_cast; field_simp
  rw [uniformMoment, uniformMoment, hS', h3, Measure.addHaar_smul, Module.finrank_fin_fun,
    ENNReal.toReal_mul, ENNReal.toReal_ofReal (abs_nonneg _), abs_of_pos (by positivity)]
  push_cast
  by_cases h0 : (((volume S).toReal : ℝ) : ℂ) = 0
  · rw [h0]; simp
  · field_simp

theorem units_ofFn {L : ℕ} (mass : ℝ) {S S' : Set V3} {s : ℝ} (hs : 0 < s)
    (hS : ∀ v : V3, v ∈ S ↔ s • v ∈ S') :
    Mom.ofFn L (uniformMoment mass S') = unitsInner s (Mom.ofFn L (uniformMoment mass S)) := by
  apply Mom.ext_get; intro l m hl hm
  rw [unitsInner_get s _ hl hm, Mom.get_ofFn _ hl hm, Mom.get_ofFn _ hl hm,
    uniformMoment_grow mass hs hS]

theorem prism_grow (H : ℝ) {B B' : Set (ℝ × ℝ)} {s : ℝ} (hs : 0 < s)
    (hB : ∀ x y : ℝ, (x, y) ∈ B ↔ (s * x, s * y) ∈ B') (v : V3) :
    v ∈ prism H B ↔ s • v ∈ prism (s * H) B' := by
  simp only [prism, Set.mem_setOf_eq, Pi.smul_apply, smul_eq_mul, ← hB]
  refine and_congr ?_ (and_congr ?_ Iff.rfl)
  · rw [show -(s * H / 2) = s * -(H / 2) by ring, mul_le_mul_iff_right₀ hs]
  · rw [show s * H / 2 = s * (H / 2) by ring, mul_le_mul_iff_right₀ hs]

theorem cone_grow (P : ℝ) {B B' : Set (ℝ × ℝ)} {s : ℝ} (hs : 0 < s)
    (hB : ∀ x y : ℝ, (x, y) ∈ B ↔ (s * x, s * y) ∈ B') (v : V3) :
    v ∈ coneOver P B ↔ s • v ∈ coneOver (s * P) B' := by
  simp only [coneOver, Set.mem_setOf_eq, Pi.smul_apply, smul_eq_mul]
  constructor
  · rintro ⟨t, h0, h1, b, hb, e0, e1, e2⟩
    exact ⟨t, h0, h1, (s * b.1, s * b.2), (hB _ _).1 hb, by rw [e0]; ring, by rw [e1]; ring, by rw [e2]; ring⟩
  · rintro ⟨t, h0, h1, b, hb, e0, e1, e2⟩
    refine ⟨t, h0, h1, (s⁻¹ * b.1, s⁻¹ * b.2), (hB _ _).2 ?_, ?_, ?_, ?_⟩
    · rwa [mul_inv_cancel_left₀ hs.ne', mul_inv_cancel_left₀ hs.ne']
    · apply mul_left_cancel₀ hs.ne'; rw [e0]; field_simp
    · apply mul_left_cancel₀ hs.ne'; rw [e1]; field_simp
    · apply mul_left_cancel₀ hs.ne'; rw [e2]; ring

theorem disc_grow (R : ℝ) {s : ℝ} (hs : 0 < s) (x y : ℝ) : (x, y) ∈ disc R ↔ (s * x, s * y) ∈ disc (s * R) := by
  simp only [disc, Set.mem_setOf_eq, mul_pow, ← mul_add]
  rw [mul_le_mul_iff_right₀ (by positivity)]

theorem sector_grow (Ri Ro phic phih : ℝ) {s : ℝ} (hs : 0 < s) (x y : ℝ) :
    (x, y) ∈ sector Ri Ro phic phih ↔ (s * x, s * y) ∈ sector (s * Ri) (s * Ro) phic phih := by
  simp only [sector, Set.mem_setOf_eq]
  constructor
  · rintro ⟨r, phi, h1, h2, h3, h4, e1, e2⟩
    exact ⟨s * r, phi, by gcongr, by gcongr, h3, h4, by rw [e1]; ring, by rw [e2]; ring⟩
  · rintro ⟨r, phi, h1, h2, h3, h4, e1, e2⟩
    refine ⟨r / s, phi, by rw [le_div_iff₀ hs]; linarith, by rw [div_le_iff₀ hs]; linarith, h3, h4, ?_, ?_⟩
    · apply mul_left_cancel₀ hs.ne'; rw [e1]; field_simp
    · apply mul_left_cancel₀ hs.ne'; rw [e2]; field_simp

theorem triangle_grow (A B : ℝ × ℝ) {s : ℝ} (hs : 0 < s) (x y : ℝ) :
    (x, y) ∈ triangle A B ↔ (s * x, s * y) ∈ triangle (s * A.1, s * A.2) (s * B.1, s * B.2) := by
  simp only [triangle, Set.mem_setOf_eq]
  refine exists_congr fun a => exists_congr fun b => and_congr Iff.rfl (and_congr Iff.rfl (and_congr Iff.rfl
    (and_congr ?_ ?_)))
  · rw [show a * (s * A.1) + b * (s * B.1) = s * (a * A.1 + b * B.1) by ring, mul_right_inj' hs.ne']
  · rw [show a * (s * A.2) + b * (s * B.2) = s * (a * A.2 + b * B.2) by ring, mul_right_inj' hs.ne']

theorem rotated_grow (phi : ℝ) {B B' : Set (ℝ × ℝ)} {s : ℝ} (hs : 0 < s)
    (hB : ∀ x y : ℝ, (x, y) ∈ B ↔ (s * x, s * y) ∈ B') (x y : ℝ) :
    (x, y) ∈ rotated phi B ↔ (s * x, s * y) ∈ rotated phi B' := by
  simp only [rotated, Set.mem_setOf_eq]
  constructor
  · rintro ⟨b, hb, e1, e2⟩
    exact ⟨(s * b.1, s * b.2), (hB _ _).1 hb, by rw [e1]; ring, by rw [e2]; ring⟩
  · rintro ⟨b, hb, e1, e2⟩
    refine ⟨(s⁻¹ * b.1, s⁻¹ * b.2), (hB _ _).2 ?_, ?_, ?_⟩
    · rwa [mul_inv_cancel_left₀ hs.ne', mul_inv_cancel_left₀ hs.ne']
    · apply mul_left_cancel₀ hs.ne'; rw [e1]; field_simp
    · apply mul_left_cancel₀ hs.ne'; rw [e2]; field_simp

theorem rectangle_grow (a b : ℝ) {s : ℝ} (hs : 0 < s) (x y : ℝ) :
    (x, y) ∈ rectangle a b ↔ (s * x, s * y) ∈ rectangle (s * a) (s * b) := by
  simp only [rectangle, Set.mem_setOf_eq, abs_mul, abs_of_pos hs, mul_div_assoc, mul_le_mul_iff_right₀ hs]

theorem polygon_grow (N : ℕ) (a phic : ℝ) {s : ℝ} (hs : 0 < s) (x y : ℝ) :
    (x, y) ∈ regularPolygon N a phic ↔ (s * x, s * y) ∈ regularPolygon N (s * a) phic := by
  simp only [regularPolygon, Set.mem_setOf_eq, mul_div_assoc s, mul_assoc s, ← mul_add, mul_le_mul_iff_right₀ hs]

theorem ball_grow (R : ℝ) {s : ℝ} (hs : 0 < s) (v : V3) : v ∈ ball R ↔ s • v ∈ ball (s * R) := by
  simp only [ball, Set.mem_setOf_eq, modulus_smul', abs_of_pos hs, mul_le_mul_iff_right₀ hs]

open Qlm

/-- C100: the moments of every solid of `newt.qlm`, all its lengths multiplied by `s`. -/
theorem C100_sphere (L : ℕ) (mass R s : ℝ) (hR : 0 < R) (hs : 0 < s) :
    sphere L mass (s * R) = unitsInner s (sphere L mass R) := by
  rw [C36_sphere L mass R hR, C36_sphere L mass _ (mul_pos hs hR), units_ofFn mass hs (ball_grow R hs)]

theorem C100_cylinder (L : ℕ) (mass H R s : ℝ) (hH : 0 < H) (hR : 0 < R) (hs : 0 < s) :
    ∃ q, cylinder L mass H R = .ok q ∧ cylinder L mass (s * H) (s * R) = .ok (unitsInner s q) :=
  ⟨_, C36_cylinder L mass H R hH hR, by
    rw [C36_cylinder L mass _ _ (mul_pos hs hH) (mul_pos hs hR),
      units_ofFn mass hs (prism_grow H hs (disc_grow R hs))]⟩

theorem C100_annulus (L : ℕ) (mass H Ri Ro phic phih s : ℝ) (hH : 0 < H) (hRi : 0 ≤ Ri) (hR : Ri < Ro)
    (h0 : 0 < phih) (hpi : phih ≤ Real.pi) (hs : 0 < s) :
    ∃ q, annulus L mass H Ri Ro phic phih = .ok q ∧
      annulus L mass (s * H) (s * Ri) (s * Ro) phic phih = .ok (unitsInner s q) :=
  ⟨_, C36_annulus L mass H Ri Ro phic phih hH hRi hR h0 hpi, by
    rw [C36_annulus L mass _ _ _ phic phih (mul_pos hs hH) (by positivity) (by gcongr) h0 hpi,
      units_ofFn mass hs (prism_grow H hs (sector_grow Ri Ro phic phih hs))]⟩

theorem C100_cone (L : ℕ) (mass P R phic phih s : ℝ) (hP : 0 < P) (hR : 0 < R) (h0 : 0 < phih)
    (hpi : phih ≤ Real.pi) (hs : 0 < s) :
    ∃ q, cone L mass P R phic phih = .ok q ∧ cone L mass (s * P) (s * R) phic phih = .ok (unitsInner s q) :=
  ⟨_, C36_cone L mass P R phic phih hP hR h0 hpi, by
    have := sector_grow 0 R phic phih hs
    rw [mul_zero] at this
    rw [C36_cone L mass _ _ phic phih (mul_pos hs hP) (mul_pos hs hR) h0 hpi,
      units_ofFn mass hs (cone_grow P hs this)]⟩

theorem C100_tri_iso_prism (L : ℕ) (mass H a d phic s : ℝ) (hH : 0 < H) (ha : 0 < a) (hd : d ≠ 0) (hs : 0 < s) :
    ∃ q, triIsoPrism L mass H a d phic = .ok q ∧
      triIsoPrism L mass (s * H) (s * a) (s * d) phic = .ok (unitsInner s q) :=
  ⟨_, C36_tri_iso_prism L mass H a d phic hH ha hd, by
    have := triangle_grow (d, -(a / 2)) (d, a / 2) hs
    rw [C36_tri_iso_prism L mass _ _ _ phic (mul_pos hs hH) (mul_pos hs ha) (mul_ne_zero hs.ne' hd),
      ← units_ofFn mass hs (prism_grow H hs (rotated_grow phic hs this))]
    simp only [mul_neg, mul_div_assoc]⟩

theorem C100_tri_iso_prism2 (L : ℕ) (mass H R phic phih s : ℝ) (hH : 0 < H) (hR : 0 < R) (h0 : 0 < phih)
    (h2 : phih < Real.pi / 2) (hs : 0 < s) :
    ∃ q, triIsoPrism2 L mass H R phic phih = .ok q ∧
      triIsoPrism2 L mass (s * H) (s * R) phic phih = .ok (unitsInner s q) :=
  ⟨_, C36_tri_iso_prism2 L mass H R phic phih hH hR h0 h2, by
    rw [C36_tri_iso_prism2 L mass _ _ phic phih (mul_pos hs hH) (mul_pos hs hR) h0 h2,
      ← units_ofFn mass hs (prism_grow H hs (triangle_grow _ _ hs))]
    simp only [mul_assoc]⟩

theorem C100_tri_prism (L : ℕ) (mass H d y1 y2 s : ℝ) (hH : 0 < H) (hd : d ≠ 0) (hy : y1 ≠ y2) (hs : 0 < s) :
    ∃ q, triPrism L mass H d y1 y2 = .ok q ∧
      triPrism L mass (s * H) (s * d) (s * y1) (s * y2) = .ok (unitsInner s q) :=
  ⟨_, C36_tri_prism L mass H d y1 y2 hH hd hy, by
    rw [C36_tri_prism L mass _ _ _ _ (mul_pos hs hH) (mul_ne_zero hs.ne' hd)
      (fun e => hy (mul_left_cancel₀ hs.ne' e)), units_ofFn mass hs (prism_grow H hs (triangle_grow (d, y1) (d, y2) hs))]⟩

theorem C100_rect_prism (L : ℕ) (mass H a b phic s : ℝ) (hH : 0 < H) (ha : 0 < a) (hb : 0 < b) (hs : 0 < s) :
    ∃ q, rectPrism L mass H a b phic = .ok q ∧
      rectPrism L mass (s * H) (s * a) (s * b) phic = .ok (unitsInner s q) :=
  ⟨_, C36_rect_prism L mass H a b phic hH ha hb, by
    rw [C36_rect_prism L mass _ _ _ phic (mul_pos hs hH) (mul_pos hs ha) (mul_pos hs hb),
      units_ofFn mass hs (prism_grow H hs (rotated_grow phic hs (rectangle_grow a b hs)))]⟩

theorem C100_ngon_prism (L : ℕ) (mass H a phic s : ℝ) (N : ℕ) (hN : 3 ≤ N) (hH : 0 < H) (ha : 0 < a) (hs : 0 < s) :
    ∃ q, ngonPrism L mass H a phic N = .ok q ∧
      ngonPrism L mass (s * H) (s * a) phic N = .ok (unitsInner s q) :=
  ⟨_, C36_ngon_prism L mass H a phic N hN hH ha, by
    rw [C36_ngon_prism L mass _ _ phic N hN (mul_pos hs hH) (mul_pos hs ha),
      units_ofFn mass hs (prism_grow H hs (polygon_grow N a phic hs))]⟩

theorem C100_tetrahedron (L : ℕ) (mass x y z s : ℝ) (hx : 0 < x) (hy : 0 < y) (hz : 0 < z) (hs : 0 < s) :
    ∃ q, tetrahedron L mass x y z = .ok q ∧
      tetrahedron L mass (s * x) (s * y) (s * z) = .ok (unitsInner s q) :=
  ⟨_, C36_tetrahedron L mass x y z hx hy hz, by
    have := triangle_grow (x, 0) (0, y) hs
    simp only [mul_zero] at this
    rw [C36_tetrahedron L mass _ _ _ (mul_pos hs hx) (mul_pos hs hy) (mul_pos hs hz),
      units_ofFn mass hs (cone_grow z hs this)]⟩

theorem C100_tetrahedron2 (L : ℕ) (mass x y1 y2 z s : ℝ) (hx : 0 < x) (hy : y1 ≠ y2) (hz : 0 < z) (hs : 0 < s) :
    ∃ q, tetrahedron2 L mass x y1 y2 z = .ok q ∧
      tetrahedron2 L mass (s * x) (s * y1) (s * y2) (s * z) = .ok (unitsInner s q) :=
  ⟨_, C36_tetrahedron2 L mass x y1 y2 z hx hy hz, by
    rw [C36_tetrahedron2 L mass _ _ _ _ (mul_pos hs hx) (fun e => hy (mul_left_cancel₀ hs.ne' e)) (mul_pos hs hz),
      units_ofFn mass hs (cone_grow z hs (triangle_grow (x, y1) (x, y2) hs))]⟩

theorem C100_pyramid (L : ℕ) (mass x y z s : ℝ) (hx : 0 < x) (hy : 0 < y) (hz : 0 < z) (hs : 0 < s) :
    ∃ q, pyramid L mass x y z = .ok q ∧ pyramid L mass (s * x) (s * y) (s * z) = .ok (unitsInner s q) :=
  ⟨_, C36_pyramid L mass x y z hx hy hz, by
    rw [C36_pyramid L mass _ _ _ (mul_pos hs hx) (mul_pos hs hy) (mul_pos hs hz),
      ← units_ofFn mass hs (cone_grow z hs (rectangle_grow (2 * x) (2 * y) hs))]
    rw [mul_left_comm 2 s x, mul_left_comm 2 s y]⟩

/-- The statements are not about zero: from metres to millimetres, the quadrupole moments of two
unit masses on the x axis grow by the factor `10^6` and do not vanish; their force falls by `10^6`. -/
example : (unitsInner 1000 (Mom.ofFn 2 (innerMoment [⟨1, ![1, 0, 0]⟩, ⟨1, ![-1, 0, 0]⟩]))).get 2 0 =
      1000 ^ 2 * innerMoment [⟨1, ![1, 0, 0]⟩, ⟨1, ![-1, 0, 0]⟩] 2 0 ∧
    OffOrigin [⟨1, ![1, 0, 0]⟩, ⟨1, ![-1, 0, 0]⟩] ∧ Valid (Mom.ofFn 2 (innerMoment exA)) ∧
    point_matrix_gravity (scalePos 1000 exA) (scalePos 1000 exB) ≠ none := by
  refine ⟨by rw [unitsInner_get _ _ le_rfl (by decide), Mom.get_ofFn _ le_rfl (by decide)]; norm_num, ?_,
    innerMoment_valid _ _, ?_⟩
  · intro p hp
    simp only [List.mem_cons, List.not_mem_nil, or_false] at hp
    rcases hp with rfl | rfl <;> exact fun h => by simpa using congrFun h 0
  · rw [C100_gravity _ _ _ (by norm_num), pmg_some exAB_apart]; simp

end Newt
