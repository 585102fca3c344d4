import Verif.Proofs.Force
import Verif.Props.Embed

/-!
# Property C33: the multipole force
-/

namespace Newt

open Spec

/-- C33: for every displacement, `multipole_force` returns minus the gradient, with respect to the
displacement of the inner body, of the interaction energy of the translated inner moments with the
outer moments; the three components are real. -/
theorem C33_force_is_gradient {L : ℕ} (q Q : Mom L) (hq : Valid q) (hQ : Valid Q) (d : V3) (G : ℝ)
    (h : 1 ≤ L ∨ d ≠ 0) :
    ∃ (F : Fin 3 → ℂ) (f : Fin 3 → ℝ) (E : V3 → ℝ),
      multipole_force q Q (d 0) (d 1) (d 2) G = some F ∧
      (∀ i, F i = (f i : ℂ)) ∧
      (∀ v, (E v : ℂ) = multipoleEnergy G (translate_qlm q v) Q) ∧
      ∀ i, HasDerivAt (fun t => E (Function.update d i t)) (-f i) (d i) := by
  obtain ⟨b, hb, hb2⟩ := force_basis_spec L d h
  have hE : ∀ v, (((pairSum (translate_qlm q v) Q).re : ℝ) : ℂ) = pairSum (translate_qlm q v) Q :=
    fun v => pairSum_real _ _ (translate_qlm_valid q hq v).1 hQ.1
  have hd : ∀ i, HasDerivAt (fun t => ((4 * Real.pi * G : ℝ) : ℂ) *
      pairSum (translate_qlm q (Function.update d i t)) Q) (forceComp q Q (b i) G) (d i) :=
    fun i => pairSum_translate_deriv q Q hq d i (b i) G (hb2 i)
  have hreal : ∀ i, (((forceComp q Q (b i) G).re : ℝ) : ℂ) = forceComp q Q (b i) G := by
    intro i
    rw [← Complex.conj_eq_iff_re]
    have h1 := conj_deriv (hd i)
    have e : ∀ t, (starRingEnd ℂ) (((4 * Real.pi * G : ℝ) : ℂ) *
        pairSum (translate_qlm q (Function.update d i t)) Q) = ((4 * Real.pi * G : ℝ) : ℂ) *
        pairSum (translate_qlm q (Function.update d i t)) Q := by
      intro t
      rw [map_mul, Complex.conj_ofReal, ← hE, Complex.conj_ofReal]
    simp only [e] at h1
    exact h1.unique (hd i)
  refine ⟨fun i => forceComp q Q (b i) G, fun i => (forceComp q Q (b i) G).re,
    fun v => -4 * Real.pi * G * (pairSum (translate_qlm q v) Q).re, ?_, fun i => (hreal i).symm, ?_, ?_⟩
  · rw [multipole_force, hb]
    simp only [Option.map_some, Option.some.injEq]
    funext i; fin_cases i <;> rfl
  · intro v
    rw [multipoleEnergy, ← hE v]
    push_cast
    simp
  · intro i
    have h1 := hasDerivAt_re (hd i)
    refine (h1.neg).congr_of_eventuallyEq (Filter.Eventually.of_forall fun t => ?_)
    simp only [Pi.neg_apply]
    rw [Complex.re_ofReal_mul]
    ring

/-- C33: `multipole_force` and `multipole_force_m` fail exactly for degree zero at zero displacement. -/
theorem C33_fails_iff {L : ℕ} (q Q : Mom L) (x y z G : ℝ) :
    (multipole_force q Q x y z G = none ↔ L = 0 ∧ x = 0 ∧ y = 0 ∧ z = 0) ∧
    (multipole_force_m q Q x y z G = none ↔ L = 0 ∧ x = 0 ∧ y = 0 ∧ z = 0) := by
  rw [multipole_force, multipole_force_m, Option.map_eq_none_iff, Option.map_eq_none_iff]
  have : force_basis L x y z = none ↔ L = 0 ∧ x = 0 ∧ y = 0 ∧ z = 0 := by
    rw [force_basis]
    split_ifs with h1 h2
    · simp [h1, h2]
    · simp [h2]
    · simp; tauto
  exact ⟨this, this⟩

theorem wrapCol_lt (L : ℕ) (mo : ℤ) (h : mo.natAbs ≤ L) : wrapCol L mo < 2 * L + 1 := by
  rw [wrapCol]; split_ifs <;> omega

/-- C33: column `m` of `multipole_force_m` (Python index `m`, so negative orders count from the end)
is the contribution of the inner moments of order `m`; each inner order lands in its own column. -/
theorem C33_m_columns {L : ℕ} (q Q : Mom L) (x y z G : ℝ) (F : Fin 3 → Fin (2 * L + 1) → ℂ)
    (hF : multipole_force_m q Q x y z G = some F) :
    ∃ b : Fin 3 → Mom L, force_basis L x y z = some (b 0, b 1, b 2) ∧
      ∀ (i : Fin 3) (mo : ℤ) (hm : mo.natAbs ≤ L),
        F i ⟨wrapCol L mo, wrapCol_lt L mo hm⟩ =
          ∑ lo ∈ Finset.Icc mo.natAbs L, forceTerm q Q (b i) G lo mo := by
  rw [multipole_force_m] at hF
  obtain ⟨b, hb, hF⟩ := Option.map_eq_some_iff.1 hF
  refine ⟨![b.1, b.2.1, b.2.2], by simpa using hb, fun i mo hm => ?_⟩
  have key : ∀ c : Mom L, forceCompM q Q c G (wrapCol L mo) = ∑ lo ∈ Finset.Icc mo.natAbs L, forceTerm q Q c G lo mo := by
    intro c
    rw [forceCompM]
    have hin : ∀ lo ∈ Finset.range (L + 1), (∑ mo' ∈ Finset.Icc (-(lo : ℤ)) lo,
        if wrapCol L mo' = wrapCol L mo then forceTerm q Q c G lo mo' else 0) =
        if mo.natAbs ≤ lo then forceTerm q Q c G lo mo else 0 := by
      intro lo hlo
      rw [Finset.mem_range] at hlo
      have e : ∀ mo' ∈ Finset.Icc (-(lo : ℤ)) lo, (if wrapCol L mo' = wrapCol L mo then forceTerm q Q c G lo mo' else 0)
          = if mo' = mo then forceTerm q Q c G lo mo else 0 := by
        intro mo' hmo'
        rw [Finset.mem_Icc] at hmo'
        have : wrapCol L mo' = wrapCol L mo ↔ mo' = mo := by
          simp only [wrapCol]; split_ifs <;> omega
        by_cases hh : mo' = mo
        · rw [if_pos (this.2 hh), if_pos hh, hh]
        · rw [if_neg (fun e => hh (this.1 e)), if_neg hh]
      rw [Finset.sum_congr rfl e, Finset.sum_ite_eq']
      simp only [Finset.mem_Icc]
      by_cases hh : mo.natAbs ≤ lo
      · rw [if_pos (by omega), if_pos hh]
      · rw [if_neg (by omega), if_neg hh]
    rw [Finset.sum_congr rfl hin]
    rw [← Finset.sum_filter]
    apply Finset.sum_congr _ (fun _ _ => rfl)
    ext k; simp only [Finset.mem_filter, Finset.mem_range, Finset.mem_Icc]; omega
  rw [← hF]
  fin_cases i <;> exact key _

/-- C33: the columns of `multipole_force_m` add up to `multipole_force`. -/
theorem C33_m_sums {L : ℕ} (q Q : Mom L) (x y z G : ℝ) (F : Fin 3 → ℂ)
    (hF : multipole_force q Q x y z G = some F) :
    ∃ Fm, multipole_force_m q Q x y z G = some Fm ∧ ∀ i, ∑ c, Fm i c = F i := by
  rw [multipole_force] at hF
  obtain ⟨b, hb, hF⟩ := Option.map_eq_some_iff.1 hF
  rw [multipole_force_m, hb]
  refine ⟨_, rfl, fun i => ?_⟩
  have key : ∀ c : Mom L, ∑ j : Fin (2 * L + 1), forceCompM q Q c G j = forceComp q Q c G := by
    intro c
    simp only [forceCompM, forceComp]
    rw [Finset.sum_comm]
    apply Finset.sum_congr rfl
    intro lo hlo
    rw [Finset.mem_range] at hlo
    rw [Finset.sum_comm]
    apply Finset.sum_congr rfl
    intro mo hmo
    rw [Finset.mem_Icc] at hmo
    have hlt := wrapCol_lt L mo (by omega)
    rw [Finset.sum_eq_single ⟨wrapCol L mo, hlt⟩]
    · simp
    · intro j _ hj
      rw [if_neg]
      intro e
      exact hj (by ext; exact e.symm)
    · intro h; exact absurd (Finset.mem_univ _) h
  rw [← hF]
  fin_cases i <;> exact key _

/-- C33: translating the inner moments by `v` first and asking for the force at `d` is the same as
asking for the force at `d + v`. -/
theorem C33_relative {L : ℕ} (q Q : Mom L) (hq : Valid q) (hQ : Valid Q) (d v : V3) (G : ℝ)
    (h : 1 ≤ L ∨ d ≠ 0) (h' : 1 ≤ L ∨ d + v ≠ 0) :
    multipole_force (translate_qlm q v) Q (d 0) (d 1) (d 2) G =
      multipole_force q Q ((d + v) 0) ((d + v) 1) ((d + v) 2) G := by
  obtain ⟨F, f, E, a1, a2, a3, a4⟩ := C33_force_is_gradient _ Q (translate_qlm_valid q hq v) hQ d G h
  obtain ⟨F', f', E', b1, b2, b3, b4⟩ := C33_force_is_gradient q Q hq hQ (d + v) G h'
  rw [a1, b1, Option.some.injEq]
  funext i
  rw [a2, b2, Complex.ofReal_inj]
  have e : ∀ u, E u = E' (u + v) := by
    intro u
    have : (E u : ℂ) = (E' (u + v) : ℂ) := by
      rw [a3, b3, C19_compose q hq, add_comm]
    exact_mod_cast this
  have h1 := a4 i
  have h2 := b4 i
  have h3 : HasDerivAt (fun t => E' (Function.update (d + v) i (t + v i))) (-f' i) (d i) := by
    have := HasDerivAt.comp_add_const (d i) (v i) h2
    simpa using this
  have e2 : (fun t => E (Function.update d i t)) = fun t => E' (Function.update (d + v) i (t + v i)) := by
    funext t
    rw [e]
    congr 1
    funext j
    by_cases hj : j = i
    · subst hj; simp
    · simp [Function.update_of_ne hj]
  rw [e2] at h1
  have := h1.unique h3
  linarith

/-- non-vacuity: degree-2 moments of point arrays at zero displacement -/
example : ∃ F, multipole_force (Mom.ofFn 2 (innerMoment [⟨1, ![1, 0, 0]⟩])) (Mom.ofFn 2 (outerMoment [⟨2, ![0, 5, 0]⟩]))
    0 0 0 1 = some F := by
  obtain ⟨F, _, _, h, _⟩ := C33_force_is_gradient (Mom.ofFn 2 (innerMoment [⟨1, ![1, 0, 0]⟩]))
    (Mom.ofFn 2 (outerMoment [⟨2, ![0, 5, 0]⟩])) (innerMoment_valid 2 _) (outerMoment_valid 2 _) 0 1 (Or.inl (by norm_num))
  exact ⟨F, h⟩

end Newt
