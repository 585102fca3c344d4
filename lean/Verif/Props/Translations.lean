import Verif.Proofs.TranslationsAlg
import Verif.Props.Pg2Multi

/-!
# Properties C18-C21 of `newt/translations.py`
-/

namespace Newt

open Spec

theorem innerMoment_valid (L : ℕ) (A : PtArray) : Valid (Mom.ofFn L (innerMoment A)) :=
  valid_ofFn _ (fun l m _ _ => innerMoment_neg A l m) (fun l m _ h => innerMoment_out A l m h)

theorem outerMoment_valid (L : ℕ) (A : PtArray) : Valid (Mom.ofFn L (outerMoment A)) :=
  valid_ofFn _ (fun l m _ _ => outerMoment_neg A l m) (fun l m _ h => outerMoment_out A l m h)

theorem trInner_innerMoment (L : ℕ) (A : PtArray) (d : V3) (l : ℕ) (hl : l ≤ L) (m : ℤ) :
    trInner (Mom.ofFn L (innerMoment A)) d l m = innerMoment (translate_point_array A d) l m := by
  induction A with
  | nil =>
    rw [trInner, Finset.sum_eq_zero]
    · simp [translate_point_array, innerMoment]
    · intro k hk
      apply Finset.sum_eq_zero
      intro n hn
      rw [Finset.mem_range] at hk
      rw [Finset.mem_Icc] at hn
      rw [Mom.get_ofFn _ (by omega) (by omega), innerMoment_nil]; simp
  | cons p A ih =>
    have e1 : innerMoment (translate_point_array (p :: A) d) l m =
        (p.mass : ℂ) * solidS l m (p.pos + d) + innerMoment (translate_point_array A d) l m := by
      simp [translate_point_array, innerMoment, translate_point]
    rw [e1, ← ih, solidS, Rsol_add, trInner, trInner, mul_left_comm, ← mul_add]
    congr 1
    rw [Finset.mul_sum, ← Finset.sum_add_distrib]
    apply Finset.sum_congr rfl
    intro k hk
    rw [Finset.mul_sum, ← Finset.sum_add_distrib]
    apply Finset.sum_congr rfl
    intro n hn
    rw [Finset.mem_range] at hk
    rw [Finset.mem_Icc] at hn
    rw [Mom.get_ofFn _ (by omega) (by omega), Mom.get_ofFn _ (by omega) (by omega),
      innerMoment_cons, solidS]
    have := Nlm_ne k n
    field_simp

/-! ## C18 -/

/-- C18: translating the moments of a point array gives the moments of the translated array. -/
theorem C18_translate_qmoments (L : ℕ) (A : PtArray) (d : V3) (hA : OffOrigin A)
    (hAd : OffOrigin (translate_point_array A d)) :
    ∃ q q', qmoments L A = some q ∧ qmoments L (translate_point_array A d) = some q' ∧
      translate_qlm q d = q' := by
  refine ⟨_, _, qmoments_closed L A (Or.inr hA.originLast),
    qmoments_closed L _ (Or.inr hAd.originLast), ?_⟩
  rw [translate_qlm_closed _ (innerMoment_valid L A)]
  apply Mom.ext_get
  intro l m hl hm
  rw [Mom.get_ofFn _ hl hm, Mom.get_ofFn _ hl hm, trInner_innerMoment L A d l hl]

/-- C18, whenever both calls of `qmoments` succeed at all (points at the origin allowed). -/
theorem C18_translate_qmoments_some (L : ℕ) (A : PtArray) (d : V3) (q q' : Mom L)
    (hA : qmoments L A = some q) (hAd : qmoments L (translate_point_array A d) = some q') :
    translate_qlm q d = q' := by
  have key : ∀ (B : PtArray) (p : Mom L), qmoments L B = some p → p = Mom.ofFn L (innerMoment B) := by
    intro B p hp
    by_cases hK : L = 0 ∨ OriginLast B
    · rw [qmoments_closed L B hK] at hp
      exact (Option.some.inj hp).symm
    · rw [qmoments_none L B (fun h => hK (Or.inl h)) (fun h => hK (Or.inr h))] at hp
      exact absurd hp (by simp)
  rw [key A q hA, key _ q' hAd, translate_qlm_closed _ (innerMoment_valid L A)]
  apply Mom.ext_get
  intro l m hl hm
  rw [Mom.get_ofFn _ hl hm, Mom.get_ofFn _ hl hm, trInner_innerMoment L A d l hl]

/-- a two-point array and a translation that satisfy the hypotheses of C18 -/
example : OffOrigin [⟨1, ![1, 0, 0]⟩, ⟨2, ![0, 1, 3]⟩] ∧
    OffOrigin (translate_point_array [⟨1, ![1, 0, 0]⟩, ⟨2, ![0, 1, 3]⟩] ![1, 2, 3]) := by
  constructor <;> intro p hp h0
  · simp only [List.mem_cons, List.not_mem_nil, or_false] at hp
    rcases hp with rfl | rfl
    · simpa using congrFun h0 0
    · simpa using congrFun h0 1
  · simp only [translate_point_array, translate_point, List.map_cons, List.map_nil, List.mem_cons,
      List.not_mem_nil, or_false] at hp
    rcases hp with rfl | rfl
    · have := congrFun h0 1; norm_num at this
    · have := congrFun h0 1; norm_num at this

/-! ## C19 -/

/-- C19: translations of inner moments compose. -/
theorem C19_compose {L : ℕ} (q : Mom L) (hq : Valid q) (u v : V3) :
    translate_qlm (translate_qlm q u) v = translate_qlm q (u + v) := translate_qlm_add q hq u v

/-- C19: a zero vector returns the array unchanged (for any array at all). -/
theorem C19_zero {L : ℕ} (q : Mom L) : translate_qlm q 0 = q := by
  rw [translate_qlm]
  simp only [if_pos ((rPOf_eq_zero 0).2 rfl)]

/-- C19: translating back restores the moments. -/
theorem C19_inverse {L : ℕ} (q : Mom L) (hq : Valid q) (d : V3) :
    translate_qlm (translate_qlm q d) (-d) = q := by
  rw [C19_compose q hq, add_neg_cancel, C19_zero]

/-- C19: any sequence of translations is the translation by the sum. -/
theorem C19_sequence {L : ℕ} (ds : List V3) : ∀ (q : Mom L), Valid q →
    ds.foldl translate_qlm q = translate_qlm q ds.sum := by
  induction ds with
  | nil => intro q _; simp [C19_zero]
  | cons d ds ih =>
    intro q hq
    rw [List.foldl_cons, ih _ (translate_qlm_valid q hq d), C19_compose q hq, List.sum_cons]

/-- C19: translation preserves the reality symmetry and the triangle of zeros. -/
theorem C19_valid {L : ℕ} (q : Mom L) (hq : Valid q) (d : V3) : Valid (translate_qlm q d) :=
  translate_qlm_valid q hq d

/-- C19: the monopole never changes. -/
theorem C19_monopole {L : ℕ} (q : Mom L) (hq : Valid q) (d : V3) :
    (translate_qlm q d).get 0 0 = q.get 0 0 := by
  rw [translate_qlm_closed q hq, Mom.get_ofFn _ (by omega) (by simp), trInner]
  simp [Rsol_zero_zero]
  have := Nlm_ne 0 0
  field_simp

/-- C19: the lowest-degree content is translation invariant: if all moments below degree `l` vanish
then the moments of degree `l` do not change. -/
theorem C19_leading_invariant {L : ℕ} (q : Mom L) (hq : Valid q) (d : V3) (l : ℕ) (hl : l ≤ L)
    (h0 : ∀ k < l, ∀ n : ℤ, q.get k n = 0) (m : ℤ) (hm : m.natAbs ≤ l) :
    (translate_qlm q d).get l m = q.get l m := by
  rw [translate_qlm_closed q hq, Mom.get_ofFn _ hl (by omega), trInner, Finset.sum_eq_single l,
    Finset.sum_eq_single m]
  · rw [Nat.sub_self, sub_self, Rsol_zero_zero, one_mul]
    have := Nlm_ne l m
    field_simp
  · intro n _ hn
    rw [Nat.sub_self, Rsol_out' _ _ _ (by omega), zero_mul]
  · intro h
    exact absurd (Finset.mem_Icc.2 ⟨by omega, by omega⟩) h
  · intro k hk hkl
    rw [Finset.mem_range] at hk
    apply Finset.sum_eq_zero
    intro n _
    rw [h0 k (by omega)]; simp
  · intro h
    exact absurd (Finset.mem_range.2 (by omega)) h

/-- The moment arrays produced by `qmoments` and `Qmomentsb` are valid, so the hypotheses of the
C19-C21 theorems are met by every array the package builds from points. -/
example (L : ℕ) (A : PtArray) : Valid (Qmomentsb L A) := C16_Qmomentsb_valid L A

/-! ## C20 -/

/-- C20: translations of outer moments compose exactly although the array is truncated. -/
theorem C20_compose {L : ℕ} (Q : Mom L) (hQ : Valid Q) (u v : V3) :
    translate_Qlmb (translate_Qlmb Q u) v = translate_Qlmb Q (u + v) := translate_Qlmb_add Q hQ u v

/-- C20: zero vector. -/
theorem C20_zero {L : ℕ} (Q : Mom L) : translate_Qlmb Q 0 = Q := by
  rw [translate_Qlmb]
  simp only [if_pos ((rPOf_eq_zero 0).2 rfl)]

/-- C20: inverse. -/
theorem C20_inverse {L : ℕ} (Q : Mom L) (hQ : Valid Q) (d : V3) :
    translate_Qlmb (translate_Qlmb Q d) (-d) = Q := by
  rw [C20_compose Q hQ, add_neg_cancel, C20_zero]

/-- C20: sequences. -/
theorem C20_sequence {L : ℕ} (ds : List V3) : ∀ (Q : Mom L), Valid Q →
    ds.foldl translate_Qlmb Q = translate_Qlmb Q ds.sum := by
  induction ds with
  | nil => intro Q _; simp [C20_zero]
  | cons d ds ih =>
    intro Q hQ
    rw [List.foldl_cons, ih _ (translate_Qlmb_valid Q hQ d), C20_compose Q hQ, List.sum_cons]

/-- C20: validity is preserved. -/
theorem C20_valid {L : ℕ} (Q : Mom L) (hQ : Valid Q) (d : V3) : Valid (translate_Qlmb Q d) :=
  translate_Qlmb_valid Q hQ d

/-- C20: the moments of the highest degree kept never change. -/
theorem C20_top_invariant {L : ℕ} (Q : Mom L) (hQ : Valid Q) (d : V3) (m : ℤ) (hm : m.natAbs ≤ L) :
    (translate_Qlmb Q d).get L m = Q.get L m := by
  rw [translate_Qlmb_closed Q hQ, Mom.get_ofFn _ le_rfl hm, trOuter, if_pos hm, Finset.Icc_self,
    Finset.sum_singleton, Finset.sum_eq_single m]
  · rw [Nat.sub_self, sub_self, Rsol_zero_zero, one_mul]
    have := Nlm_ne L m
    have h2 : (2 * (L : ℂ) + 1) ≠ 0 := by exact_mod_cast (by omega : 2 * L + 1 ≠ 0)
    field_simp
  · intro n _ hn
    rw [Nat.sub_self, Rsol_out' _ _ _ (by omega), zero_mul]
  · intro h
    exact absurd (Finset.mem_Icc.2 ⟨by omega, by omega⟩) h

/-! ## C21 -/

/-- C21: moving the inner body by `d` or the frame of the outer body by `-d` gives the same
interaction. -/
theorem C21_adjoint {L : ℕ} (q Q : Mom L) (hq : Valid q) (hQ : Valid Q) (d : V3) :
    pairSum (translate_qlm q d) Q = pairSum q (translate_Qlmb Q (-d)) := by
  rw [pairSum, pairSum, pairing_red, pairing_red, pairing_adjoint q Q hq hQ d]

/-- C21: moving both by the same vector changes nothing. -/
theorem C21_common_motion {L : ℕ} (q Q : Mom L) (hq : Valid q) (hQ : Valid Q) (d : V3) :
    pairSum (translate_qlm q d) (translate_Qlmb Q d) = pairSum q Q := by
  rw [C21_adjoint q _ hq (translate_Qlmb_valid Q hQ d), C20_inverse Q hQ]

end Newt
