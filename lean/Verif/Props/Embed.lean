import Verif.Props.Torque

/-!
# Property C32: embed_qlm
-/

namespace Newt

open Spec

/-- C32: `embed_qlm` keeps every cell present in both arrays and pads with zeros. -/
theorem C32_entries {L : ℕ} (q : Mom L) (L' l : ℕ) (m : ℤ) (hl : l ≤ L') (hm : m.natAbs ≤ L') :
    (embed_qlm q L').get l m = if l ≤ L ∧ m.natAbs ≤ L then q.get l m else 0 := by
  have hg : (if l ≤ L ∧ m.natAbs ≤ L then q.get l m else 0) = q.get l m := by
    split_ifs with h
    · rfl
    · rw [Mom.get_out q h]
  rw [hg, embed_qlm]
  split_ifs with h1 h2
  · rw [Mom.get, dif_pos ⟨hl, hm⟩, Mom.get, dif_pos ⟨by omega, by omega⟩]
    change q.cell _ _ = q.cell _ _
    congr 1
    rw [Fin.mk.injEq]; simp only []; omega
  · subst h2; rfl
  · rw [Mom.get, dif_pos ⟨hl, hm⟩]
    simp only []
    by_cases hh : l ≤ L ∧ m.natAbs ≤ L
    · rw [dif_pos (by omega), Mom.get, dif_pos hh]
      congr 1
      ext; simp only []; omega
    · rw [dif_neg (by omega), Mom.get_out q hh]

/-- the same with the convention that `get` is zero outside the array -/
theorem embed_get {L : ℕ} (q : Mom L) (L' l : ℕ) (m : ℤ) (hl : l ≤ L') (hm : m.natAbs ≤ L') :
    (embed_qlm q L').get l m = q.get l m := by
  rw [C32_entries q L' l m hl hm]
  split_ifs with h
  · rfl
  · rw [Mom.get_out q h]

/-- C32: embedding in the same degree is the identity; embedding up and back down restores the array;
truncating twice is truncating once. -/
theorem C32_roundtrip {L : ℕ} (q : Mom L) :
    embed_qlm q L = q ∧ (∀ L', L ≤ L' → embed_qlm (embed_qlm q L') L = q) ∧
    (∀ L1 L2, L2 ≤ L1 → embed_qlm (embed_qlm q L1) L2 = embed_qlm q L2) := by
  refine ⟨?_, ?_, ?_⟩
  · apply Mom.ext_get
    intro l m hl hm
    rw [embed_get _ _ _ _ hl hm]
  · intro L' h
    apply Mom.ext_get
    intro l m hl hm
    rw [embed_get _ _ _ _ hl hm, embed_get _ _ _ _ (by omega) (by omega)]
  · intro L1 L2 h
    apply Mom.ext_get
    intro l m hl hm
    rw [embed_get _ _ _ _ hl hm, embed_get _ _ _ _ (by omega) (by omega), embed_get _ _ _ _ hl hm]

/-- C32: truncation loses exactly the moments above the new degree: the round trip down and up
restores the array iff they were all zero. -/
theorem C32_down_up_iff {L : ℕ} (q : Mom L) (L' : ℕ) (h : L' ≤ L) :
    embed_qlm (embed_qlm q L') L = q ↔
      ∀ (l : ℕ) (m : ℤ), l ≤ L → m.natAbs ≤ L → (L' < l ∨ L' < m.natAbs) → q.get l m = 0 := by
  constructor
  · intro e l m hl hm hout
    rw [← e, embed_get _ _ _ _ hl hm, Mom.get_out _ (by omega)]
  · intro e
    apply Mom.ext_get
    intro l m hl hm
    rw [embed_get _ _ _ _ hl hm]
    by_cases h2 : l ≤ L' ∧ m.natAbs ≤ L'
    · rw [embed_get _ _ _ _ h2.1 h2.2]
    · rw [Mom.get_out _ h2, e l m hl hm (by omega)]

/-- C32: embedded arrays stay valid. -/
theorem C32_valid {L : ℕ} (q : Mom L) (hq : Valid q) (L' : ℕ) : Valid (embed_qlm q L') := by
  constructor
  · intro l m hl hm
    rw [embed_get _ _ _ _ hl (by omega), embed_get _ _ _ _ hl hm]
    by_cases h : l ≤ L ∧ m.natAbs ≤ L
    · exact hq.1 l m h.1 h.2
    · rw [Mom.get_out q h, Mom.get_out q (by rw [Int.natAbs_neg]; exact h)]; simp
  · intro l m hl hm hlm
    rw [embed_get _ _ _ _ hl hm]
    by_cases h : l ≤ L ∧ m.natAbs ≤ L
    · exact hq.2 l m h.1 h.2 hlm
    · rw [Mom.get_out q h]

/-- C32: the moments of a point array to a lower degree are the truncated moments to a higher one. -/
theorem C32_truncate_qmoments (L L' : ℕ) (h : L' ≤ L) (A : PtArray) (hA : ¬ OffAfterOrigin A) :
    ∃ q q', qmoments L A = some q ∧ qmoments L' A = some q' ∧ embed_qlm q L' = q' := by
  have e := (originLast_iff A).2 hA
  refine ⟨_, _, qmoments_closed L A (Or.inr e), qmoments_closed L' A (Or.inr e), ?_⟩
  apply Mom.ext_get
  intro l m hl hm
  rw [embed_get _ _ _ _ hl hm, Mom.get_ofFn _ hl hm, Mom.get_ofFn _ (by omega) (by omega)]

/-- C32: embedding commutes with rotation, up or down. -/
theorem C32_rotate {L : ℕ} (q : Mom L) (hq : Valid q) (L' : ℕ) (alpha beta gamma : ℝ) :
    ∃ q', rotate_qlm q alpha beta gamma = some q' ∧
      rotate_qlm (embed_qlm q L') alpha beta gamma = some (embed_qlm q' L') := by
  refine ⟨_, rotate_qlm_rotM q _ _ _, ?_⟩
  rw [rotate_qlm_rotM, Option.some.injEq]
  have h1 := rotM_valid _ (C32_valid q hq L') alpha beta gamma
  have h2 := C32_valid _ (rotM_valid q hq alpha beta gamma) L'
  apply Mom.ext_get
  intro l m hl hm
  by_cases h : m.natAbs ≤ l
  · rw [embed_get _ _ _ _ hl hm, rotM_get _ _ _ _ l m hl h]
    have e : ∀ n ∈ Finset.Icc (-(l : ℤ)) l, bigD l alpha beta gamma m n * (embed_qlm q L').get l n =
        bigD l alpha beta gamma m n * q.get l n := by
      intro n hn
      rw [Finset.mem_Icc] at hn
      rw [embed_get _ _ _ _ hl (by omega)]
    rw [Finset.sum_congr rfl e]
    by_cases hlL : l ≤ L
    · rw [rotM_get _ _ _ _ l m hlL h]
    · rw [Mom.get_out (rotM alpha beta gamma q) (fun e => hlL e.1)]
      apply Finset.sum_eq_zero
      intro n hn
      rw [Mom.get_out q (fun e => hlL e.1), mul_zero]
  · rw [h1.2 l m hl hm (by omega), h2.2 l m hl hm (by omega)]

/-- C32: truncation commutes with inner translation (low degrees never depend on high ones), so moments
of degree `<= L'` may be computed at `L'`. -/
theorem C32_translate_truncate {L : ℕ} (q : Mom L) (hq : Valid q) (L' : ℕ) (h : L' ≤ L) (d : V3) :
    translate_qlm (embed_qlm q L') d = embed_qlm (translate_qlm q d) L' := by
  rw [translate_qlm_closed _ (C32_valid q hq L'), translate_qlm_closed q hq]
  apply Mom.ext_get
  intro l m hl hm
  rw [embed_get _ _ _ _ hl hm, Mom.get_ofFn _ hl hm, Mom.get_ofFn _ (by omega) (by omega), trInner, trInner]
  congr 1
  apply Finset.sum_congr rfl
  intro k hk
  rw [Finset.mem_range] at hk
  apply Finset.sum_congr rfl
  intro n hn
  rw [Finset.mem_Icc] at hn
  rw [embed_get _ _ _ _ (by omega) (by omega)]

/-- C32: embedding outer moments upwards commutes with outer translation (padding with zeros adds no
new low-degree terms). -/
theorem C32_translate_outer_pad {L : ℕ} (Q : Mom L) (hQ : Valid Q) (L' : ℕ) (h : L ≤ L') (d : V3) :
    translate_Qlmb (embed_qlm Q L') d = embed_qlm (translate_Qlmb Q d) L' := by
  rw [translate_Qlmb_closed _ (C32_valid Q hQ L'), translate_Qlmb_closed Q hQ]
  apply Mom.ext_get
  intro l m hl hm
  rw [embed_get _ _ _ _ hl hm, Mom.get_ofFn _ hl hm]
  have key : trOuter (embed_qlm Q L') d l m = trOuter Q d l m := by
    rw [trOuter, trOuter]
    split_ifs with hm'
    · congr 1
      have hsub : Finset.Icc l L ⊆ Finset.Icc l L' := Finset.Icc_subset_Icc le_rfl h
      symm
      rw [← Finset.sum_subset hsub]
      · apply Finset.sum_congr rfl
        intro k hk
        rw [Finset.mem_Icc] at hk
        apply Finset.sum_congr rfl
        intro n hn
        rw [Finset.mem_Icc] at hn
        rw [embed_get _ _ _ _ (by omega) (by omega)]
      · intro k hk hk'
        rw [Finset.mem_Icc] at hk hk'
        apply Finset.sum_eq_zero
        intro n hn
        rw [Finset.mem_Icc] at hn
        rw [embed_get _ _ _ _ (by omega) (by omega), Mom.get_out _ (by omega)]; simp
    · rfl
  rw [key]
  by_cases hlL : l ≤ L
  · by_cases hml : m.natAbs ≤ L
    · rw [Mom.get_ofFn _ hlL hml]
    · rw [Mom.get_out _ (by omega), trOuter, if_neg (by omega)]
  · rw [Mom.get_out _ (by omega), trOuter]
    rw [Finset.Icc_eq_empty (by omega)]; simp

/-- C32: a negative degree yields no array. -/
theorem C32_negative {L : ℕ} (q : Mom L) (n : ℤ) :
    (embed_qlm_int q n = none ↔ n < 0) ∧ (∀ k : ℕ, embed_qlm_int q k = some ⟨k, embed_qlm q k⟩) := by
  constructor
  · rw [embed_qlm_int]; split_ifs with h <;> simp [h]
  · intro k
    rw [embed_qlm_int, if_neg (by omega)]
    simp

/-- C32: with arrays of different degrees, embedding the smaller or truncating the larger gives the
same interaction energy. -/
theorem C32_energy {L : ℕ} (q : Mom L) (L' : ℕ) (h : L ≤ L') (Q : Mom L') (G : ℝ) :
    multipoleEnergy G (embed_qlm q L') Q = multipoleEnergy G q (embed_qlm Q L) := by
  rw [multipoleEnergy, multipoleEnergy, pairSum, pairSum]
  congr 1
  have hsub : Finset.range (L + 1) ⊆ Finset.range (L' + 1) := Finset.range_subset_range.2 (by omega)
  rw [← Finset.sum_subset hsub]
  · apply Finset.sum_congr rfl
    intro l hl
    rw [Finset.mem_range] at hl
    apply Finset.sum_congr rfl
    intro m hm
    rw [Finset.mem_Icc] at hm
    rw [embed_get _ _ _ _ (by omega) (by omega), embed_get _ _ _ _ (by omega) (by omega)]
  · intro l hl hl'
    rw [Finset.mem_range] at hl hl'
    apply Finset.sum_eq_zero
    intro m hm
    rw [Finset.mem_Icc] at hm
    rw [embed_get _ _ _ _ (by omega) (by omega), Mom.get_out _ (by omega)]; simp

/-- non-vacuity: a degree-2 array truncated to degree 1 loses its quadrupole -/
example : ∃ q : Mom 2, Valid q ∧ embed_qlm (embed_qlm q 1) 2 ≠ q := by
  refine ⟨quadrupole, quadrupole_valid, fun h => ?_⟩
  have := (C32_down_up_iff quadrupole 1 (by norm_num)).1 h 2 0 le_rfl (by simp) (by simp)
  rw [quadrupole, Mom.get_ofFn _ le_rfl (by simp)] at this
  simp at this

end Newt
