import Verif.Spec.Glib
import Mathlib.Tactic

/-! # Lemmas about the point-gravity model -/

namespace Newt

open Spec

/-! ## Option-valued list sums -/

theorem mapM_opt_some {α β : Type*} (f : α → Option β) (g : α → β) :
    ∀ (l : List α), (∀ a ∈ l, f a = some (g a)) → l.mapM f = some (l.map g)
  | [], _ => rfl
  | a :: l, h => by
    have ih := mapM_opt_some f g l (fun b hb => h b (List.mem_cons_of_mem _ hb))
    rw [List.mapM_cons, h a List.mem_cons_self, ih]
    rfl

theorem mapM_opt_none {α β : Type*} (f : α → Option β) :
    ∀ (l : List α), (∃ a ∈ l, f a = none) → l.mapM f = none
  | [], h => by simp at h
  | a :: l, h => by
    rw [List.mapM_cons]
    rcases hfa : f a with _ | b
    · rfl
    · have : ∃ a ∈ l, f a = none := by
        obtain ⟨c, hc, hn⟩ := h
        rcases List.mem_cons.1 hc with rfl | hc
        · rw [hfa] at hn; cases hn
        · exact ⟨c, hc, hn⟩
      rw [mapM_opt_none f l this]
      rfl

theorem modulus_eq_zero (v : V3) : modulus v = 0 ↔ v = 0 := by
  unfold modulus
  rw [Real.sqrt_eq_zero (by positivity)]
  constructor
  · intro h
    have h0 : v 0 = 0 := by nlinarith [sq_nonneg (v 0), sq_nonneg (v 1), sq_nonneg (v 2)]
    have h1 : v 1 = 0 := by nlinarith [sq_nonneg (v 0), sq_nonneg (v 1), sq_nonneg (v 2)]
    have h2 : v 2 = 0 := by nlinarith [sq_nonneg (v 0), sq_nonneg (v 1), sq_nonneg (v 2)]
    ext i; fin_cases i <;> simpa
  · rintro rfl; simp

theorem modulus_neg (v : V3) : modulus (-v) = modulus v := by
  simp [modulus]

theorem modulus_nonneg (v : V3) : 0 ≤ modulus v := Real.sqrt_nonneg _

theorem modulus_pos {v : V3} (h : v ≠ 0) : 0 < modulus v :=
  lt_of_le_of_ne (modulus_nonneg v) (fun e => h ((modulus_eq_zero v).1 e.symm))

theorem dist3_eq (x y : V3) : dist3 x y = modulus (y - x) := by
  unfold dist3 modulus
  congr 1
  simp [Fin.sum_univ_three]
  ring

/-! ## Closed forms -/

/-- weight of the gravitational pair force -/
noncomputable def gW (p q : Pt) : ℝ := BIG_G * p.mass * q.mass / modulus (q.pos - p.pos) ^ 3

/-- weight of the Yukawa pair force -/
noncomputable def yW (alpha lmbd : ℝ) (p q : Pt) : ℝ :=
  let r := modulus (q.pos - p.pos)
  alpha * BIG_G * p.mass * q.mass * Real.exp (-r / lmbd) * (1 / r ^ 3 + 1 / (r ^ 2 * lmbd))

theorem gmmr2_term_some {p q : Pt} (h : p.pos ≠ q.pos) :
    gmmr2_term p q = some (gW p q • (q.pos - p.pos)) := by
  have : modulus (q.pos - p.pos) ≠ 0 := by
    rw [Ne, modulus_eq_zero, sub_eq_zero]; exact fun e => h e.symm
  simp [gmmr2_term, fdiv, this, gW]

theorem gmmr2_term_none {p q : Pt} (h : p.pos = q.pos) : gmmr2_term p q = none := by
  have : modulus (q.pos - p.pos) = 0 := by
    rw [modulus_eq_zero, sub_eq_zero]; exact h.symm
  simp [gmmr2_term, fdiv, this]

theorem yukawa_term_some {alpha lmbd : ℝ} (hl : lmbd ≠ 0) {p q : Pt} (h : p.pos ≠ q.pos) :
    yukawa_term alpha lmbd p q = some (yW alpha lmbd p q • (q.pos - p.pos)) := by
  have : modulus (q.pos - p.pos) ≠ 0 := by
    rw [Ne, modulus_eq_zero, sub_eq_zero]; exact fun e => h e.symm
  simp [yukawa_term, fdiv, this, yW, hl]

theorem yukawa_term_none {alpha lmbd : ℝ} {p q : Pt} (h : p.pos = q.pos ∨ lmbd = 0) :
    yukawa_term alpha lmbd p q = none := by
  rcases h with h | h
  · have : modulus (q.pos - p.pos) = 0 := by
      rw [modulus_eq_zero, sub_eq_zero]; exact h.symm
    simp [yukawa_term, fdiv, this]
  · by_cases h0 : modulus (q.pos - p.pos) = 0 <;>
    simp [yukawa_term, fdiv, h, h0]

/-- The double sum of a pairwise central force. -/
noncomputable def totF (w : Pt → Pt → ℝ) (A B : PtArray) : V3 :=
  (A.map fun a => (B.map fun b => w a b • (b.pos - a.pos)).sum).sum

/-- The double sum of the torque of a pairwise central force. -/
noncomputable def totT (w : Pt → Pt → ℝ) (A B : PtArray) : V3 :=
  (A.map fun a => crossProduct a.pos (B.map fun b => w a b • (b.pos - a.pos)).sum).sum

theorem accumulate_some (f : Pt → Option V3) (g : Pt → V3) :
    ∀ (A : PtArray) (acc : V3 × V3), (∀ a ∈ A, f a = some (g a)) →
      accumulate f A acc = some (acc.1 + (A.map g).sum,
        acc.2 + (A.map fun a => crossProduct a.pos (g a)).sum)
  | [], acc, _ => by simp [accumulate]
  | a :: A, acc, h => by
    rw [accumulate, h a List.mem_cons_self, Option.bind_some,
      accumulate_some f g A _ (fun b hb => h b (List.mem_cons_of_mem _ hb))]
    simp [add_assoc]

theorem accumulate_none (f : Pt → Option V3) :
    ∀ (A : PtArray) (acc : V3 × V3), (∃ a ∈ A, f a = none) → accumulate f A acc = none
  | [], acc, h => by simp at h
  | a :: A, acc, h => by
    rw [accumulate]
    rcases hfa : f a with _ | b
    · rfl
    · rw [Option.bind_some]
      apply accumulate_none
      obtain ⟨c, hc, hn⟩ := h
      rcases List.mem_cons.1 hc with rfl | hc
      · rw [hfa] at hn; cases hn
      · exact ⟨c, hc, hn⟩

theorem gmmr2_array_some {p : Pt} {B : PtArray} (h : ∀ b ∈ B, p.pos ≠ b.pos) :
    gmmr2_array p B = some (B.map fun b => gW p b • (b.pos - p.pos)).sum := by
  rw [gmmr2_array, mapM_opt_some _ _ _ (fun b hb => gmmr2_term_some (h b hb))]
  rfl

theorem gmmr2_array_none {p : Pt} {B : PtArray} (h : ∃ b ∈ B, p.pos = b.pos) :
    gmmr2_array p B = none := by
  rw [gmmr2_array, mapM_opt_none]
  · rfl
  · obtain ⟨b, hb, e⟩ := h
    exact ⟨b, hb, gmmr2_term_none e⟩

theorem yukawa_array_some {alpha lmbd : ℝ} (hl : lmbd ≠ 0) {p : Pt} {B : PtArray}
    (h : ∀ b ∈ B, p.pos ≠ b.pos) :
    yukawa_array p B alpha lmbd = some (B.map fun b => yW alpha lmbd p b • (b.pos - p.pos)).sum := by
  rw [yukawa_array, mapM_opt_some _ _ _ (fun b hb => yukawa_term_some hl (h b hb))]
  rfl

theorem yukawa_array_none {alpha lmbd : ℝ} {p : Pt} {B : PtArray}
    (h : ∃ b ∈ B, p.pos = b.pos ∨ lmbd = 0) :
    yukawa_array p B alpha lmbd = none := by
  rw [yukawa_array, mapM_opt_none]
  · rfl
  · obtain ⟨b, hb, e⟩ := h
    exact ⟨b, hb, yukawa_term_none e⟩

theorem pmg_some {A B : PtArray} (h : Apart A B) :
    point_matrix_gravity A B = some (totF gW A B, totT gW A B) := by
  rw [point_matrix_gravity, accumulate_some _ _ _ _ (fun a ha => gmmr2_array_some (h a ha))]
  simp [totF, totT]

theorem pmg_none {A B : PtArray} (h : ¬ Apart A B) : point_matrix_gravity A B = none := by
  simp only [Apart, not_forall, not_not] at h
  obtain ⟨a, ha, b, hb, e⟩ := h
  exact accumulate_none _ _ _ ⟨a, ha, gmmr2_array_none ⟨b, hb, e⟩⟩

theorem pmy_some {alpha lmbd : ℝ} (hl : lmbd ≠ 0) {A B : PtArray} (h : Apart A B) :
    point_matrix_yukawa A B alpha lmbd =
      some (totF (yW alpha lmbd) A B, totT (yW alpha lmbd) A B) := by
  rw [point_matrix_yukawa,
    accumulate_some _ _ _ _ (fun a ha => yukawa_array_some hl (h a ha))]
  simp [totF, totT]

theorem pmy_none {alpha lmbd : ℝ} {A B : PtArray} (h : ¬ Apart A B) :
    point_matrix_yukawa A B alpha lmbd = none := by
  simp only [Apart, not_forall, not_not] at h
  obtain ⟨a, ha, b, hb, e⟩ := h
  exact accumulate_none _ _ _ ⟨a, ha, yukawa_array_none ⟨b, hb, Or.inl e⟩⟩

/-! ## Double sums -/

theorem sum_sum_comm {M : Type*} [AddCommMonoid M] {α β : Type*} (f : α → β → M) :
    ∀ (A : List α) (B : List β),
      (A.map fun a => (B.map fun b => f a b).sum).sum =
        (B.map fun b => (A.map fun a => f a b).sum).sum
  | [], B => by simp
  | a :: A, B => by
    simp only [List.map_cons, List.sum_cons]
    rw [sum_sum_comm f A B, ← List.sum_map_add]

theorem cross_list_sum (x : V3) : ∀ (l : List V3),
    crossProduct x l.sum = (l.map fun v => crossProduct x v).sum
  | [] => by simp
  | v :: l => by simp [cross_list_sum x l]

theorem totT_eq (w : Pt → Pt → ℝ) (A B : PtArray) :
    totT w A B = (A.map fun a => (B.map fun b =>
      crossProduct a.pos (w a b • (b.pos - a.pos))).sum).sum := by
  unfold totT
  congr 1
  apply List.map_congr_left
  intro a _
  rw [cross_list_sum, List.map_map]
  rfl

theorem neg_list_sum {M : Type*} [AddCommGroup M] : ∀ l : List M,
    (l.map fun v => -v).sum = -l.sum
  | [] => by simp
  | v :: l => by simp [neg_list_sum l, add_comm]

theorem totF_antisymm (w : Pt → Pt → ℝ) (hw : ∀ a b, w a b = w b a) (A B : PtArray) :
    totF w B A = -totF w A B := by
  unfold totF
  rw [sum_sum_comm, ← neg_list_sum, List.map_map]
  congr 1
  apply List.map_congr_left
  intro a _
  simp only [Function.comp]
  rw [← neg_list_sum, List.map_map]
  congr 1
  apply List.map_congr_left
  intro b _
  simp only [Function.comp]
  rw [hw b a, ← smul_neg, neg_sub]

theorem cross_antisymm_aux (x y : V3) (c : ℝ) :
    crossProduct x (c • (y - x)) = -crossProduct y (c • (x - y)) := by
  ext i; fin_cases i <;> simp [crossProduct] <;> ring

theorem totT_antisymm (w : Pt → Pt → ℝ) (hw : ∀ a b, w a b = w b a) (A B : PtArray) :
    totT w B A = -totT w A B := by
  rw [totT_eq, totT_eq, sum_sum_comm, ← neg_list_sum, List.map_map]
  congr 1
  apply List.map_congr_left
  intro a _
  simp only [Function.comp]
  rw [← neg_list_sum, List.map_map]
  congr 1
  apply List.map_congr_left
  intro b _
  simp only [Function.comp]
  rw [hw b a, cross_antisymm_aux]

theorem gW_symm (a b : Pt) : gW a b = gW b a := by
  unfold gW
  rw [← neg_sub b.pos a.pos, modulus_neg]
  ring

theorem yW_symm (alpha lmbd : ℝ) (a b : Pt) : yW alpha lmbd a b = yW alpha lmbd b a := by
  unfold yW
  rw [← neg_sub b.pos a.pos, modulus_neg]
  ring

end Newt
