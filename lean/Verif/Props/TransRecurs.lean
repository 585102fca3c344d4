import Verif.Proofs.TransRecurs3
import Verif.Props.Translations

/-!
# Properties C29, C28 (translations), C48 and C49: the recursive translations
-/

namespace Newt

open Spec

/-- `d` points along `+z` or is zero: no rotation is needed. -/
def OnAxis (d : V3) : Prop := d 0 = 0 ∧ d 1 = 0 ∧ 0 ≤ d 2

theorem onAxis_iff (d : V3) : OnAxis d ↔ rPOf d = d 2 := by
  constructor
  · rintro ⟨h0, h1, h2⟩
    rw [rPOf, h0, h1]; simp [Real.sqrt_sq h2]
  · intro h
    have h1 : 0 ≤ d 2 := h ▸ Real.sqrt_nonneg _
    have h2 : rPOf d ^ 2 = d 0 ^ 2 + d 1 ^ 2 + d 2 ^ 2 := Real.sq_sqrt (by positivity)
    rw [h] at h2
    have h3 : d 0 ^ 2 = 0 := by nlinarith [sq_nonneg (d 0), sq_nonneg (d 1)]
    have h4 : d 1 ^ 2 = 0 := by nlinarith [sq_nonneg (d 0), sq_nonneg (d 1)]
    exact ⟨by simpa using h3, by simpa using h4, h1⟩

theorem onAxis_vec {d : V3} (h : OnAxis d) : d = ![0, 0, d 2] := by
  funext i; fin_cases i
  · exact h.1
  · exact h.2.1
  · rfl

/-- The inner translation of this module in closed form, for any array whatsoever. -/
theorem trr_translate_qlm_closed {L : ℕ} (q : Mom L) (d : V3) (hd : d ≠ 0) (h : 1 ≤ L ∨ OnAxis d) :
    trr.translate_qlm q d = some (Mom.ofFn L (trInner q d)) := by
  have hr : rPOf d ≠ 0 := fun h => hd ((rPOf_eq_zero d).1 h)
  rw [trr.translate_qlm]
  simp only [if_neg hr]
  by_cases ho : OnAxis d
  · have h2 := (onAxis_iff d).1 ho
    rw [if_pos h2, h2, apply_RR _ _ (h2 ▸ hr), ← onAxis_vec ho]
  · rw [if_neg (fun e => ho ((onAxis_iff d).2 e))]
    obtain ⟨ds, h1, h2⟩ := rotate_Ds_rotM (L := L) (h.resolve_right ho) (-phiPOf d) (-thetaPOf d) (-phiPOf d)
    rw [h1]
    simp only [Option.bind_eq_bind, Option.bind_some, (h2 _).1, apply_RR _ _ hr, (h2 _).2, Option.pure_def,
      Option.some.injEq]
    rw [← eul_to_z d hd, ← rotM_inner, rotM_inv]

theorem trr_translate_Qlmb_closed {L : ℕ} (Q : Mom L) (d : V3) (hd : d ≠ 0) (h : 1 ≤ L ∨ OnAxis d) :
    trr.translate_Qlmb Q d = some (Mom.ofFn L (trOuter Q d)) := by
  have hr : rPOf d ≠ 0 := fun h => hd ((rPOf_eq_zero d).1 h)
  rw [trr.translate_Qlmb]
  simp only [if_neg hr]
  by_cases ho : OnAxis d
  · have h2 := (onAxis_iff d).1 ho
    rw [if_pos h2, h2, apply_SS _ _ (h2 ▸ hr), ← onAxis_vec ho]
  · rw [if_neg (fun e => ho ((onAxis_iff d).2 e))]
    obtain ⟨ds, h1, h2⟩ := rotate_Ds_rotM (L := L) (h.resolve_right ho) (phiPOf d) (-thetaPOf d) (phiPOf d)
    rw [h1]
    simp only [Option.bind_eq_bind, Option.bind_some, (h2 _).1, apply_SS _ _ hr, (h2 _).2, Option.pure_def,
      Option.some.injEq]
    have h3 := rotM_outer Q d (-phiPOf d) (-thetaPOf d) (-phiPOf d)
    rw [neg_neg, eul_to_z d hd] at h3
    rw [← h3, rotM_inv]

theorem trr_translate_q2Q_closed {L : ℕ} (q : Mom L) (d : V3) (hd : d ≠ 0) (h : 1 ≤ L ∨ OnAxis d) :
    trr.translate_q2Q q d = some (Mom.ofFn L (trQ q d)) := by
  have hr : rPOf d ≠ 0 := fun h => hd ((rPOf_eq_zero d).1 h)
  have hp : 0 < rPOf d := lt_of_le_of_ne (Real.sqrt_nonneg _) (Ne.symm hr)
  rw [trr.translate_q2Q]
  simp only [if_neg hr]
  by_cases ho : OnAxis d
  · have h2 := (onAxis_iff d).1 ho
    rw [if_pos h2, h2, apply_SR _ _ (h2 ▸ hp), ← onAxis_vec ho]
  · rw [if_neg (fun e => ho ((onAxis_iff d).2 e))]
    have hL := h.resolve_right ho
    obtain ⟨ds, h1, h2⟩ := rotate_Ds_rotM (L := L) hL (-phiPOf d) (-thetaPOf d) (-phiPOf d)
    obtain ⟨ds', h1', h2'⟩ := rotate_Ds_rotM (L := L) hL (phiPOf d) (-thetaPOf d) (phiPOf d)
    rw [h1, h1']
    simp only [Option.bind_eq_bind, Option.bind_some, (h2 _).1, apply_SR _ _ hp, (h2' _).2, Option.pure_def,
      Option.some.injEq]
    have h3 := rotM_q2Q q d (-phiPOf d) (-thetaPOf d) (-phiPOf d)
    rw [neg_neg, eul_to_z d hd] at h3
    rw [← h3, rotM_inv]

/-! ## C29 -/

/-- C29: the two implementations of the inner translation agree, for every vector, every degree of
at least one (and degree zero along the axis), and every valid array. -/
theorem C29_translate_qlm {L : ℕ} (q : Mom L) (hq : Valid q) (d : V3) (h : 1 ≤ L ∨ OnAxis d) :
    trr.translate_qlm q d = some (translate_qlm q d) := by
  by_cases hd : d = 0
  · subst hd
    rw [C19_zero, trr.translate_qlm]
    simp only [if_pos ((rPOf_eq_zero 0).2 rfl)]
  · rw [trr_translate_qlm_closed q d hd h, translate_qlm_closed q hq d]

/-- C29: the two implementations of the outer translation agree. -/
theorem C29_translate_Qlmb {L : ℕ} (Q : Mom L) (hQ : Valid Q) (d : V3) (h : 1 ≤ L ∨ OnAxis d) :
    trr.translate_Qlmb Q d = some (translate_Qlmb Q d) := by
  by_cases hd : d = 0
  · subst hd
    rw [C20_zero, trr.translate_Qlmb]
    simp only [if_pos ((rPOf_eq_zero 0).2 rfl)]
  · rw [trr_translate_Qlmb_closed Q d hd h, translate_Qlmb_closed Q hQ d]

/-- C29: the two implementations of the inner-to-outer translation agree for every non-zero vector
and every array at all. -/
theorem C29_translate_q2Q {L : ℕ} (q : Mom L) (d : V3) (hd : d ≠ 0) (h : 1 ≤ L ∨ OnAxis d) :
    trr.translate_q2Q q d = translate_q2Q q d := by
  rw [trr_translate_q2Q_closed q d hd h, translate_q2Q_closed q d hd]

/-- C29: they differ at the zero vector: the recursive version silently returns the inner moments as
if they were outer moments, the Clebsch-Gordan version produces NaNs. -/
theorem C29_q2Q_zero_differ {L : ℕ} (q : Mom L) :
    trr.translate_q2Q q 0 = some q ∧ translate_q2Q q 0 = none := by
  rw [trr.translate_q2Q, translate_q2Q]
  simp only [if_pos ((rPOf_eq_zero 0).2 rfl), and_self]

/-- C29, end to end: the recursive translation of the moments of a point array gives the moments of
the translated array. -/
theorem C29_translate_qmoments (L : ℕ) (A : PtArray) (d : V3) (hA : OffOrigin A)
    (hAd : OffOrigin (translate_point_array A d)) (h : 1 ≤ L ∨ OnAxis d) :
    ∃ q q', qmoments L A = some q ∧ qmoments L (translate_point_array A d) = some q' ∧
      trr.translate_qlm q d = some q' := by
  obtain ⟨q, q', h1, h2, h3⟩ := C18_translate_qmoments L A d hA hAd
  refine ⟨q, q', h1, h2, ?_⟩
  rw [qmoments_closed L A (Or.inr hA.originLast), Option.some.injEq] at h1
  subst h1
  rw [C29_translate_qlm _ (innerMoment_valid L A) d h, h3]

/-- non-vacuity: a valid array of degree 2 and a vector off the axis -/
example : Valid (Mom.ofFn 2 (innerMoment [⟨1, ![1, 0, 0]⟩, ⟨2, ![0, 1, 3]⟩])) ∧
    (![1, 2, 3] : V3) ≠ 0 ∧ ¬ OnAxis ![1, 2, 3] ∧ OnAxis ![0, 0, 3] := by
  refine ⟨innerMoment_valid 2 _, fun h => ?_, fun h => ?_, ?_⟩
  · simpa using congrFun h 0
  · simpa using h.1
  · exact ⟨rfl, rfl, by simp⟩

/-! ## C28 for translations -/

/-- C28: each recursive translation fails exactly for degree zero off the axis. -/
theorem C28_trr_fails_iff {L : ℕ} (q : Mom L) (d : V3) :
    (trr.translate_qlm q d = none ↔ L = 0 ∧ ¬ OnAxis d) ∧
    (trr.translate_Qlmb q d = none ↔ L = 0 ∧ ¬ OnAxis d) ∧
    (trr.translate_q2Q q d = none ↔ L = 0 ∧ ¬ OnAxis d) := by
  by_cases hd : d = 0
  · subst hd
    have ho : OnAxis 0 := ⟨rfl, rfl, le_rfl⟩
    rw [trr.translate_qlm, trr.translate_Qlmb, trr.translate_q2Q]
    simp only [if_pos ((rPOf_eq_zero 0).2 rfl), ho]
    simp
  · by_cases h : 1 ≤ L ∨ OnAxis d
    · rw [trr_translate_qlm_closed q d hd h, trr_translate_Qlmb_closed q d hd h,
        trr_translate_q2Q_closed q d hd h]
      have : ¬ (L = 0 ∧ ¬ OnAxis d) := by
        rintro ⟨h1, h2⟩
        rcases h with h | h
        · omega
        · exact h2 h
      simp [this]
    · rw [not_or] at h
      have hL : L = 0 := by omega
      have hr : rPOf d ≠ 0 := fun e => hd ((rPOf_eq_zero d).1 e)
      have hz : ¬ rPOf d = d 2 := fun e => h.2 ((onAxis_iff d).2 e)
      rw [trr.translate_qlm, trr.translate_Qlmb, trr.translate_q2Q]
      simp only [if_neg hr, if_neg hz]
      subst hL
      rw [(C28_wigner_fails_iff 0 _ _ _).1.2 rfl, (C28_wigner_fails_iff 0 _ _ _).1.2 rfl]
      simp [h.2]

/-- C28: a concrete failing call: the mass of a body (degree zero moments) cannot be moved along x. -/
example (q : Mom 0) : trr.translate_qlm q ![1, 0, 0] = none :=
  (C28_trr_fails_iff q _).1.2 ⟨rfl, fun h => by simpa using h.1⟩

/-! ## C48: rotations and translations intertwine -/

/-- C48: translate then rotate = rotate then translate by the rotated vector. -/
theorem C48_rotate_translate {L : ℕ} (q : Mom L) (hq : Valid q) (d : V3) (alpha beta gamma : ℝ) :
    ∃ (d1 d2 d3 : V3) (q' : Mom L),
      rotate_point_array [⟨1, d⟩] gamma ![0, 0, 1] = some [⟨1, d1⟩] ∧
      rotate_point_array [⟨1, d1⟩] beta ![0, 1, 0] = some [⟨1, d2⟩] ∧
      rotate_point_array [⟨1, d2⟩] alpha ![0, 0, 1] = some [⟨1, d3⟩] ∧
      rotate_qlm q alpha beta gamma = some q' ∧
      rotate_qlm (translate_qlm q d) alpha beta gamma = some (translate_qlm q' d3) := by
  obtain ⟨q', h1, h2⟩ := C47_valid q hq alpha beta gamma
  refine ⟨rz gamma d, ry beta (rz gamma d), eul alpha beta gamma d, q', ?_, ?_, ?_, h1, ?_⟩
  · rw [rotate_some ez_ne, ← rotF_z]; rfl
  · rw [rotate_some ey_ne, ← rotF_y]; rfl
  · rw [rotate_some ez_ne, eul, ← rotF_z alpha]; rfl
  · rw [rotate_qlm_rotM, Option.some.injEq] at h1 ⊢
    rw [translate_qlm_closed q hq, rotM_inner, h1, translate_qlm_closed q' h2]

/-! ## C49: inner-to-outer translation -/

/-- C49: a point mass at the origin (only a monopole) seen from a distance: the inner-to-outer
translation gives exactly the outer moments of the moved point, to every degree. -/
theorem C49_q2Q_monopole (L : ℕ) (M : ℝ) (d : V3) (hd : d ≠ 0) :
    translate_q2Q (Mom.ofFn L (innerMoment [⟨M, 0⟩])) d = some (Mom.ofFn L (outerMoment [⟨M, d⟩])) := by
  rw [translate_q2Q_closed _ d hd, Option.some.injEq]
  apply Mom.ext_get
  intro l m hl hm
  rw [Mom.get_ofFn _ hl hm, Mom.get_ofFn _ hl hm, trQ]
  split_ifs with h
  · have h1 : ∀ k ∈ Finset.range (L + 1), k ≠ 0 → ∑ n ∈ Finset.Icc (-(k : ℤ)) k,
        (-1) ^ k * fO (l + k) (m + n) d *
          ((Mom.ofFn L (innerMoment [⟨M, 0⟩])).get k n / (Nlm k n : ℂ)) = 0 := by
      intro k hk h0
      apply Finset.sum_eq_zero
      intro n hn
      rw [Finset.mem_range] at hk
      rw [Finset.mem_Icc] at hn
      rw [Mom.get_ofFn _ (by omega) (by omega)]
      simp [innerMoment, solidS, Rsol_at_zero k h0]
    rw [Finset.sum_eq_single 0 h1 (fun h => absurd (Finset.mem_range.2 (by omega)) h)]
    simp only [Nat.cast_zero, neg_zero, Finset.Icc_self, Finset.sum_singleton, pow_zero, one_mul, add_zero]
    rw [Mom.get_ofFn _ (by omega) (by simp), fO]
    simp only [innerMoment, outerMoment, List.map_cons, List.map_nil, List.sum_cons, List.sum_nil, add_zero,
      solidO, solidS, Rsol_zero_zero, map_mul, Complex.conj_ofReal, mul_one]
    have := Nlm_ne l m
    have := Nlm_ne 0 0
    have h3 : ((2 * l + 1 : ℂ)) ≠ 0 := by exact_mod_cast (by omega : 2 * l + 1 ≠ 0)
    field_simp
  · rw [outerMoment_out _ _ _ (by omega)]

end Newt
