import Verif.Model.MultipoleLib
import Verif.Spec.Multipole
import Verif.Props.TransRecurs
import Mathlib.Analysis.SpecialFunctions.ExpDeriv

/-!
# Lemmas about the torque routines
-/

namespace Newt

open Spec

/-- Sum over all cells of the product of two arrays. -/
noncomputable def cellSum {L : ℕ} (q w : Mom L) : ℂ :=
  ∑ l ∈ Finset.range (L + 1), ∑ m ∈ Finset.Icc (-(L : ℤ)) L, q.get l m * w.get l m

/-- Conjugate symmetry of the columns of a torque array. -/
def ConjCols {L : ℕ} (n : Mom L) : Prop :=
  ∀ (l : ℕ) (m : ℤ), l ≤ L → m.natAbs ≤ L → n.get l (-m) = (starRingEnd ℂ) (n.get l m)

theorem colSum_neg {L : ℕ} {n : Mom L} (h : ConjCols n) (m : ℤ) (hm : m.natAbs ≤ L) :
    colSum n (-m) = (starRingEnd ℂ) (colSum n m) := by
  rw [colSum, colSum, map_sum]
  apply Finset.sum_congr rfl
  intro l hl
  rw [Finset.mem_range] at hl
  exact h l m (by omega) hm

theorem sum_Icc_split (f : ℤ → ℂ) (L : ℕ) :
    ∑ m ∈ Finset.Icc (-(L : ℤ)) L, f m = f 0 + ∑ k ∈ Finset.Icc 1 L, (f k + f (-(k : ℤ))) := by
  induction L with
  | zero => simp
  | succ L ih =>
    rw [Finset.sum_Icc_succ_top (by omega), ← add_assoc, ← ih]
    have : Finset.Icc (-((L + 1 : ℕ) : ℤ)) ((L + 1 : ℕ) : ℤ) =
        insert (-((L + 1 : ℕ) : ℤ)) (insert ((L + 1 : ℕ) : ℤ) (Finset.Icc (-(L : ℤ)) L)) := by
      ext x; simp only [Finset.mem_Icc, Finset.mem_insert]; omega
    rw [this, Finset.sum_insert (by simp only [Finset.mem_Icc, Finset.mem_insert]; omega),
      Finset.sum_insert (by simp only [Finset.mem_Icc]; omega)]
    ring

theorem exp_re_im (t : ℝ) : Complex.exp (-Complex.I * t) = (Real.cos t : ℂ) - Complex.I * (Real.sin t : ℂ) := by
  rw [show -Complex.I * (t : ℂ) = ((-t : ℝ) : ℂ) * Complex.I by push_cast; ring, Complex.exp_mul_I,
    ← Complex.ofReal_cos, ← Complex.ofReal_sin, Real.cos_neg, Real.sin_neg]
  push_cast; ring

/-- `torques_at_angle` of the output amplitudes is the full Fourier sum. -/
theorem torques_at_angle_eq {L : ℕ} (n : Mom L) (h : ConjCols n) (phi : ℝ) (outer : Bool) :
    ∃ t : ℝ, torques_at_angle (torqueOut n).nc (torqueOut n).ns phi outer = some t ∧
      (t : ℂ) = ∑ m ∈ Finset.Icc (-(L : ℤ)) L,
        colSum n m * Complex.exp (-Complex.I * m * ((if outer then -1 else 1 : ℝ) * phi : ℝ)) := by
  have hlc : (torqueOut n).nc.length = L + 1 := by simp [torqueOut]
  have hls : (torqueOut n).ns.length = L + 1 := by simp [torqueOut]
  have hne : ¬ ((torqueOut n).nc = [] ∨ (torqueOut n).ns.length < (torqueOut n).nc.length) := by
    rw [hlc, hls]; simp [torqueOut]
  have hc : ∀ k, k ≤ L → (torqueOut n).nc.getD k 0 = ((2 * (colSum n k).re : ℝ) : ℂ) := by
    intro k hk
    rw [getD_lt _ _ (by omega)]
    simp only [torqueOut, List.getElem_map, List.getElem_range]
    rw [colSum_neg h _ (by omega), Complex.add_conj]
  have hs : ∀ k, k ≤ L → (torqueOut n).ns.getD k 0 = ((2 * (colSum n k).im : ℝ) : ℂ) * Complex.I := by
    intro k hk
    rw [getD_lt _ _ (by omega)]
    simp only [torqueOut, List.getElem_map, List.getElem_range]
    rw [colSum_neg h _ (by omega), Complex.sub_conj]
  rw [torques_at_angle, if_neg hne, hlc]
  simp only [Option.some.injEq]
  refine ⟨_, rfl, ?_⟩
  rw [sum_Icc_split]
  set s : ℝ := if outer then -1 else 1 with hsdef
  rw [hc 0 (by omega), hs 0 (by omega)]
  have hsum : ∀ f : ℕ → ℝ, ∀ g : ℕ → ℝ, (∑ k ∈ Finset.Icc 1 (L + 1 - 1), f k) + (∑ k ∈ Finset.Icc 1 (L + 1 - 1), g k)
      = ∑ k ∈ Finset.Icc 1 L, (f k + g k) := by
    intro f g; rw [← Finset.sum_add_distrib]; rfl
  rw [show ∀ a b c d : ℝ, a + b + (c + d) = a + c + (b + d) by intros; ring, hsum]
  push_cast
  congr 1
  · have h0 : (colSum n 0).im = 0 := by
      have := colSum_neg h 0 (by simp)
      rw [neg_zero] at this
      exact Complex.conj_eq_iff_im.1 this.symm
    simp only [Complex.re_mul_ofReal, Complex.mul_im, Complex.I_im, Complex.I_re, Int.cast_zero, mul_zero, zero_mul,
      Complex.exp_zero, mul_one, Nat.cast_zero]
    apply Complex.ext <;> simp [h0]
  · apply Finset.sum_congr rfl
    intro k hk
    rw [Finset.mem_Icc] at hk
    rw [hc k hk.2, hs k hk.2, colSum_neg h k (by omega)]
    have e1 : Complex.exp (-Complex.I * ((k : ℤ) : ℂ) * ((s : ℂ) * (phi : ℂ))) =
        (Real.cos (s * k * phi) : ℂ) - Complex.I * (Real.sin (s * k * phi) : ℂ) := by
      rw [← exp_re_im]; push_cast; ring_nf
    have e2 : Complex.exp (-Complex.I * ((-(k : ℤ) : ℤ) : ℂ) * ((s : ℂ) * (phi : ℂ))) =
        (Real.cos (s * k * phi) : ℂ) + Complex.I * (Real.sin (s * k * phi) : ℂ) := by
      have := exp_re_im (-(s * k * phi))
      rw [Real.cos_neg, Real.sin_neg] at this
      push_cast at this ⊢
      rw [← sub_neg_eq_add, ← mul_neg, ← this]; ring_nf
    have e1' := e1; have e2' := e2
    push_cast at e1' e2'
    rw [e1', e2']
    apply Complex.ext
    · simp [-Complex.ofReal_cos, -Complex.ofReal_sin, ← Complex.ofReal_natCast, ← Complex.ofReal_mul, ← Complex.ofReal_cos, ← Complex.ofReal_sin]
      ring
    · simp [-Complex.ofReal_cos, -Complex.ofReal_sin, ← Complex.ofReal_natCast, ← Complex.ofReal_mul, ← Complex.ofReal_cos, ← Complex.ofReal_sin]
      ring

/-! ## Adjoints -/

theorem cellSum_applyD {L : ℕ} (D : ℕ → ℤ → ℤ → ℂ) (q w : Mom L) :
    cellSum (applyD D q) w = cellSum q (applyD (fun k a b => D k b a) w) := by
  rw [cellSum, cellSum]
  apply Finset.sum_congr rfl
  intro l hl
  rw [Finset.mem_range] at hl
  have hsub : Finset.Icc (-(l : ℤ)) l ⊆ Finset.Icc (-(L : ℤ)) L :=
    Finset.Icc_subset_Icc (by omega) (by omega)
  rw [← Finset.sum_sdiff hsub, ← Finset.sum_sdiff (f := fun m => q.get l m * _) hsub]
  congr 1
  · apply Finset.sum_congr rfl
    intro m hm
    rw [Finset.mem_sdiff, Finset.mem_Icc, Finset.mem_Icc] at hm
    have hml : ¬ |m| ≤ l := by rw [abs_le]; exact hm.2
    rw [applyD, applyD, Mom.get_ofFn _ (by omega) (by omega), Mom.get_ofFn _ (by omega) (by omega),
      if_neg (fun h => hml h.2), if_neg (fun h => hml h.2)]
  · by_cases h0 : 1 ≤ l
    · have e1 : ∀ m ∈ Finset.Icc (-(l : ℤ)) l, (applyD D q).get l m * w.get l m =
          ∑ n ∈ Finset.Icc (-(l : ℤ)) l, D l m n * q.get l n * w.get l m := by
        intro m hm
        rw [Finset.mem_Icc] at hm
        rw [applyD, Mom.get_ofFn _ (by omega) (by omega), if_pos ⟨h0, abs_le.2 hm⟩, Finset.sum_mul]
      have e2 : ∀ n ∈ Finset.Icc (-(l : ℤ)) l, q.get l n * (applyD (fun k a b => D k b a) w).get l n =
          ∑ m ∈ Finset.Icc (-(l : ℤ)) l, D l m n * q.get l n * w.get l m := by
        intro n hn
        rw [Finset.mem_Icc] at hn
        rw [applyD, Mom.get_ofFn _ (by omega) (by omega), if_pos ⟨h0, abs_le.2 hn⟩, Finset.mul_sum]
        apply Finset.sum_congr rfl; intros; ring
      rw [Finset.sum_congr rfl e1, Finset.sum_congr rfl e2, Finset.sum_comm]
    · apply Finset.sum_congr rfl
      intro m hm
      rw [Finset.mem_Icc] at hm
      rw [applyD, applyD, Mom.get_ofFn _ (by omega) (by omega), Mom.get_ofFn _ (by omega) (by omega),
        if_neg (fun h => h0 h.1), if_neg (fun h => h0 h.1)]

theorem cellSum_Ds {L : ℕ} (q w : Mom L) (ds : List (ℤ → ℤ → ℂ)) (c : Bool) :
    cellSum (rotate_qlm_Ds q ds c) w = cellSum q (rotate_qlm_Ds_right w ds c) := by
  rw [rotate_qlm_Ds, rotate_qlm_Ds_right]
  by_cases h : ds.length = L + 1
  · rw [if_pos h, if_pos h, cellSum_applyD]
  · rw [if_neg h, if_neg h]

theorem cellSum_flip {L : ℕ} (q w : Mom L) : cellSum (trr.fliplr q) w = cellSum q (trr.fliplr w) := by
  rw [cellSum, cellSum]
  apply Finset.sum_congr rfl
  intro l hl
  rw [Finset.mem_range] at hl
  rw [← sum_Icc_neg]
  apply Finset.sum_congr rfl
  intro m hm
  rw [Finset.mem_Icc] at hm
  rw [trr.fliplr, trr.fliplr, Mom.get_ofFn _ (by omega) (by omega), Mom.get_ofFn _ (by omega) (by omega), neg_neg]

/-- The array computed by `apply_trans_mat` before the flip. -/
noncomputable def tmat {L : ℕ} (e : ℕ → ℕ → ℕ → ℝ) (q : Mom L) : Mom L := Mom.ofFn L fun l m =>
  if m.natAbs ≤ l then
    ∑ k ∈ Finset.range (L + 1 - m.natAbs), ((e m.natAbs (l - m.natAbs) k : ℝ) : ℂ) * q.get (m.natAbs + k) m
  else 0

theorem sum_range_ge (L n : ℕ) (hn : n ≤ L) (f : ℕ → ℂ) (hf : ∀ l < n, f l = 0) :
    ∑ l ∈ Finset.range (L + 1), f l = ∑ k ∈ Finset.range (L + 1 - n), f (n + k) := by
  rw [← Finset.sum_range_add_sum_Ico f (show n ≤ L + 1 by omega), Finset.sum_eq_zero, zero_add,
    Finset.sum_Ico_eq_sum_range]
  intro l hl
  exact hf l (Finset.mem_range.1 hl)

theorem cellSum_tmat {L : ℕ} (e : ℕ → ℕ → ℕ → ℝ) (q w : Mom L) :
    cellSum (tmat e q) w = cellSum q (tmat (fun m i j => e m j i) w) := by
  rw [cellSum, cellSum, Finset.sum_comm, Finset.sum_comm (s := Finset.range (L + 1))]
  apply Finset.sum_congr rfl
  intro m hm
  rw [Finset.mem_Icc] at hm
  rw [sum_range_ge L m.natAbs (by omega), sum_range_ge L m.natAbs (by omega)]
  · have e1 : ∀ i ∈ Finset.range (L + 1 - m.natAbs), (tmat e q).get (m.natAbs + i) m * w.get (m.natAbs + i) m =
        ∑ k ∈ Finset.range (L + 1 - m.natAbs),
          ((e m.natAbs i k : ℝ) : ℂ) * q.get (m.natAbs + k) m * w.get (m.natAbs + i) m := by
      intro i hi
      rw [Finset.mem_range] at hi
      rw [tmat, Mom.get_ofFn _ (by omega) (by omega), if_pos (by omega), Finset.sum_mul,
        Nat.add_sub_cancel_left]
    have e2 : ∀ k ∈ Finset.range (L + 1 - m.natAbs),
        q.get (m.natAbs + k) m * (tmat (fun m i j => e m j i) w).get (m.natAbs + k) m =
        ∑ i ∈ Finset.range (L + 1 - m.natAbs),
          ((e m.natAbs i k : ℝ) : ℂ) * q.get (m.natAbs + k) m * w.get (m.natAbs + i) m := by
      intro k hk
      rw [Finset.mem_range] at hk
      rw [tmat, Mom.get_ofFn _ (by omega) (by omega), if_pos (by omega), Finset.mul_sum,
        Nat.add_sub_cancel_left]
      apply Finset.sum_congr rfl; intros; ring
    rw [Finset.sum_congr rfl e1, Finset.sum_congr rfl e2, Finset.sum_comm]
  · intro l hl
    rw [tmat, Mom.get_ofFn _ (by omega) (by omega), if_neg (by omega), mul_zero]
  · intro l hl
    rw [tmat, Mom.get_ofFn _ (by omega) (by omega), if_neg (by omega), zero_mul]

theorem tmat_flip {L : ℕ} (e : ℕ → ℕ → ℕ → ℝ) (q : Mom L) :
    tmat e (trr.fliplr q) = trr.fliplr (tmat e q) := by
  apply Mom.ext_get
  intro l m hl hm
  have h1 : (trr.fliplr (tmat e q)).get l m = (tmat e q).get l (-m) := by
    rw [trr.fliplr, Mom.get_ofFn _ hl hm]
  rw [h1, tmat, Mom.get_ofFn _ hl hm, tmat, Mom.get_ofFn _ hl (by omega), Int.natAbs_neg]
  split_ifs
  · apply Finset.sum_congr rfl
    intro k hk
    rw [Finset.mem_range] at hk
    rw [trr.fliplr, Mom.get_ofFn _ (by omega) hm]
  · rfl

theorem apply_tmat {L : ℕ} (q : Mom L) (e : List (ℕ → ℕ → ℝ)) (he : e.length = L + 1) (b : Bool) :
    trr.apply_trans_mat q e b = some (if b then trr.fliplr (tmat (fun m => e.getD m 0) q)
      else tmat (fun m => e.getD m 0) q) ∧
    trr.apply_trans_mat_right q e b = some (if b then trr.fliplr (tmat (fun m i j => e.getD m 0 j i) q)
      else tmat (fun m i j => e.getD m 0 j i) q) := by
  have h : ¬ (L + 1 ≠ e.length) := by omega
  rw [trr.apply_trans_mat, trr.apply_trans_mat_right, if_neg h, if_neg h]
  exact ⟨rfl, rfl⟩

/-- The right application of a translation matrix is the adjoint of the left one. -/
theorem cellSum_apply {L : ℕ} (q w : Mom L) (e : List (ℕ → ℕ → ℝ)) (he : e.length = L + 1) (b : Bool) :
    ∃ q' w', trr.apply_trans_mat q e b = some q' ∧ trr.apply_trans_mat_right w e b = some w' ∧
      cellSum q' w = cellSum q w' := by
  refine ⟨_, _, (apply_tmat q e he b).1, (apply_tmat w e he b).2, ?_⟩
  cases b
  · simpa using cellSum_tmat (fun m => e.getD m 0) q w
  · simp only [if_true]
    rw [cellSum_flip, cellSum_tmat, tmat_flip]

/-! ## Symmetry of the weighted arrays -/

/-- The reality symmetry with a minus sign. -/
def ASym {L : ℕ} (q : Mom L) : Prop :=
  ∀ (l : ℕ) (m : ℤ), l ≤ L → m.natAbs ≤ L → q.get l (-m) = -((-1) ^ m.natAbs * (starRingEnd ℂ) (q.get l m))

theorem sq_one (k : ℕ) : ((-1 : ℂ)) ^ k * (-1) ^ k = 1 := by
  rw [← mul_pow]; simp

theorem weightLM_asym {L : ℕ} (q : Mom L) (hq : Sym q) : ASym (weightLM q) := by
  intro l m hl hm
  rw [weightLM, Mom.get_ofFn _ hl (by omega), Mom.get_ofFn _ hl hm, hq l m hl hm, map_mul, Complex.conj_ofReal]
  push_cast; ring

theorem applyD_asym {L : ℕ} (D : ℕ → ℤ → ℤ → ℂ) (w : Mom L) (hw : ASym w)
    (hD : ∀ (l : ℕ) (a b : ℤ), l ≤ L → a.natAbs ≤ l → b.natAbs ≤ l →
      D l (-a) (-b) = (-1) ^ a.natAbs * (-1) ^ b.natAbs * (starRingEnd ℂ) (D l a b)) : ASym (applyD D w) := by
  intro l m hl hm
  rw [applyD, Mom.get_ofFn _ hl (by omega), Mom.get_ofFn _ hl hm, abs_neg]
  split_ifs with h
  · have hml := abs_le.1 h.2
    rw [← sum_Icc_neg, map_sum, Finset.mul_sum, ← Finset.sum_neg_distrib]
    apply Finset.sum_congr rfl
    intro n hn
    rw [Finset.mem_Icc] at hn
    rw [hD l m n hl (by omega) (by omega), hw l n hl (by omega), map_mul]
    linear_combination (-(-1 : ℂ) ^ m.natAbs * (starRingEnd ℂ) (D l m n) * (starRingEnd ℂ) (w.get l n)) * sq_one n.natAbs
  · exact hw l m hl hm

theorem tmat_asym {L : ℕ} (e : ℕ → ℕ → ℕ → ℝ) (w : Mom L) (hw : ASym w) : ASym (tmat e w) := by
  intro l m hl hm
  rw [tmat, Mom.get_ofFn _ hl (by omega), Mom.get_ofFn _ hl hm, Int.natAbs_neg]
  split_ifs
  · rw [map_sum, Finset.mul_sum, ← Finset.sum_neg_distrib]
    apply Finset.sum_congr rfl
    intro k hk
    rw [Finset.mem_range] at hk
    rw [hw _ m (by omega) hm, map_mul, Complex.conj_ofReal]
    ring
  · simp

theorem flip_asym {L : ℕ} (w : Mom L) (hw : ASym w) : ASym (trr.fliplr w) := by
  intro l m hl hm
  rw [trr.fliplr, Mom.get_ofFn _ hl (by omega), Mom.get_ofFn _ hl hm]
  have := hw l (-m) hl (by omega)
  rwa [Int.natAbs_neg] at this

theorem apply_right_asym {L : ℕ} (w w' : Mom L) (hw : ASym w) (e : List (ℕ → ℕ → ℝ)) (b : Bool)
    (h : trr.apply_trans_mat_right w e b = some w') : ASym w' := by
  by_cases he : e.length = L + 1
  · rw [(apply_tmat w e he b).2, Option.some.injEq] at h
    subst h
    cases b
    · rw [if_neg (by simp)]; exact tmat_asym _ _ hw
    · rw [if_pos rfl]; exact flip_asym _ (tmat_asym _ _ hw)
  · rw [trr.apply_trans_mat_right, if_pos (by omega)] at h
    cases h

theorem Ds_right_asym {L : ℕ} (hL : 1 ≤ L) (alpha beta gamma : ℝ) (ds : List (ℤ → ℤ → ℂ))
    (hds : wignerDl L alpha beta gamma = some ds) (w : Mom L) (hw : ASym w) (c : Bool) :
    ASym (rotate_qlm_Ds_right w ds c) := by
  obtain ⟨ds', h1, h2, h3⟩ := wignerDl_some L hL alpha beta gamma
  rw [hds, Option.some.injEq] at h1
  subst h1
  rw [rotate_qlm_Ds_right, if_pos h2]
  apply applyD_asym _ _ hw
  intro l a b hl ha hb
  cases c
  · simp only [Bool.false_eq_true, if_false]
    rw [h3 l (-b) (-a) hl (by omega) (by omega), h3 l b a hl hb ha, bigD_neg_idx l _ _ _ _ _ hb ha]
    ring
  · simp only [if_true]
    rw [h3 l (-a) (-b) hl (by omega) (by omega), h3 l a b hl ha hb, bigD_neg_idx l _ _ _ _ _ ha hb]
    simp only [map_mul, map_pow, map_neg, map_one]

theorem rotM_z {L : ℕ} (q : Mom L) (phi : ℝ) (hq : Tri q) (l : ℕ) (m : ℤ) (hl : l ≤ L) (hm : m.natAbs ≤ L) :
    (rotM phi 0 0 q).get l m = q.get l m * Complex.exp (-Complex.I * m * phi) := by
  obtain ⟨q', h1, h2, h3⟩ := C27_about_z q phi 0
  rw [rotate_qlm_rotM, Option.some.injEq] at h1
  subst h1
  by_cases h : m.natAbs ≤ l
  · rw [h2 l m hl h]
    push_cast; rw [add_zero]; ring
  · rw [h3 l m hl hm (by omega), hq l m hl hm (by omega), zero_mul]

theorem rotM_valid {L : ℕ} (q : Mom L) (hq : Valid q) (alpha beta gamma : ℝ) : Valid (rotM alpha beta gamma q) := by
  obtain ⟨q', h1, h2⟩ := C47_valid q hq alpha beta gamma
  rw [rotate_qlm_rotM, Option.some.injEq] at h1
  rwa [h1]

/-- The array `-4 pi i G q w` at the end of the torque routines. -/
noncomputable def finN {L : ℕ} (G : ℝ) (q w : Mom L) : Mom L := Mom.ofFn L fun l m =>
  ((-4 * Real.pi * G : ℝ) : ℂ) * Complex.I * q.get l m * w.get l m

theorem finN_comm {L : ℕ} (G : ℝ) (q w : Mom L) : finN G q w = finN G w q := by
  apply Mom.ext_get
  intro l m hl hm
  rw [finN, finN, Mom.get_ofFn _ hl hm, Mom.get_ofFn _ hl hm]
  ring

theorem finN_conj {L : ℕ} (G : ℝ) (q w : Mom L) (hq : Sym q) (hw : ASym w) : ConjCols (finN G q w) := by
  intro l m hl hm
  rw [finN, Mom.get_ofFn _ hl (by omega), Mom.get_ofFn _ hl hm, hq l m hl hm, hw l m hl hm]
  simp only [map_mul, Complex.conj_I, Complex.conj_ofReal]
  linear_combination (-((-4 * Real.pi * G : ℝ) : ℂ) * Complex.I * (starRingEnd ℂ) (q.get l m) *
    (starRingEnd ℂ) (w.get l m)) * sq_one m.natAbs

/-- The torque at an angle of the amplitudes of `finN`. -/
theorem finN_angle {L : ℕ} (G : ℝ) (q w : Mom L) (hq : Valid q) (hw : ASym w) (phi : ℝ) (outer : Bool) :
    ∃ t : ℝ, torques_at_angle (torqueOut (finN G q w)).nc (torqueOut (finN G q w)).ns phi outer = some t ∧
      (t : ℂ) = ((-4 * Real.pi * G : ℝ) : ℂ) * Complex.I *
        cellSum (rotM ((if outer then -1 else 1 : ℝ) * phi) 0 0 q) w := by
  obtain ⟨t, h1, h2⟩ := torques_at_angle_eq _ (finN_conj G q w hq.1 hw) phi outer
  refine ⟨t, h1, ?_⟩
  rw [h2, cellSum, Finset.sum_comm, Finset.mul_sum]
  apply Finset.sum_congr rfl
  intro m hm
  rw [Finset.mem_Icc] at hm
  rw [colSum, Finset.sum_mul, Finset.mul_sum]
  apply Finset.sum_congr rfl
  intro l hl
  rw [Finset.mem_range] at hl
  rw [finN, Mom.get_ofFn _ (by omega) (by omega), rotM_z q _ hq.2 l m (by omega) (by omega)]
  ring

theorem torque_lm_fin {L : ℕ} (G : ℝ) (q Q : Mom L) : torque_lm q Q G = torqueOut (finN G q (weightLM Q)) := by
  rw [torque_lm]
  congr 1
  apply Mom.ext_get
  intro l m hl hm
  rw [finN, Mom.get_ofFn _ hl hm, Mom.get_ofFn _ hl hm, weightLM, Mom.get_ofFn _ hl hm]
  ring

theorem rotM_000 {L : ℕ} (q : Mom L) : rotM 0 0 0 q = q := by
  have := C27_zero q
  rwa [rotate_qlm_rotM, Option.some.injEq] at this

theorem cellSum_weight {L : ℕ} (q Q : Mom L) : cellSum q (weightLM Q) = cellSum (weightLM q) Q := by
  rw [cellSum, cellSum]
  apply Finset.sum_congr rfl
  intro l hl
  apply Finset.sum_congr rfl
  intro m hm
  rw [Finset.mem_range] at hl
  rw [Finset.mem_Icc] at hm
  rw [weightLM, weightLM, Mom.get_ofFn _ (by omega) (by omega), Mom.get_ofFn _ (by omega) (by omega)]
  ring

theorem cellSum_comm {L : ℕ} (q Q : Mom L) : cellSum q Q = cellSum Q q := by
  rw [cellSum, cellSum]
  simp only [mul_comm]

/-- The total torque of two arrays. -/
theorem torque_lm_zero {L : ℕ} (G : ℝ) (q Q : Mom L) (hq : Valid q) (hQ : Valid Q) :
    ∃ t : ℝ, torques_at_angle (torque_lm q Q G).nc (torque_lm q Q G).ns 0 false = some t ∧
      (t : ℂ) = ((-4 * Real.pi * G : ℝ) : ℂ) * Complex.I * cellSum q (weightLM Q) := by
  rw [torque_lm_fin]
  obtain ⟨t, h1, h2⟩ := finN_angle G q _ hq (weightLM_asym Q hQ.1) 0 false
  refine ⟨t, h1, ?_⟩
  rw [h2, mul_zero, rotM_000]

/-- The angle sum of `torque_lm`. -/
theorem torque_lm_angle {L : ℕ} (G : ℝ) (q Q : Mom L) (hq : Valid q) (hQ : Valid Q) (phi : ℝ) (outer : Bool) :
    ∃ t : ℝ, torques_at_angle (torque_lm q Q G).nc (torque_lm q Q G).ns phi outer = some t ∧
      (t : ℂ) = ((-4 * Real.pi * G : ℝ) : ℂ) * Complex.I *
        cellSum (rotM ((if outer then -1 else 1 : ℝ) * phi) 0 0 q) (weightLM Q) := by
  rw [torque_lm_fin]
  exact finN_angle G q _ hq (weightLM_asym Q hQ.1) phi outer

end Newt
