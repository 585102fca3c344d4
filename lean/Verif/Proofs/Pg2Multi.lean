import Verif.Model.Pg2Multi
import Verif.Spec.Moments
import Verif.Proofs.SphHarm
import Verif.Proofs.Glib

/-! # Lemmas about `pg2Multi` -/

namespace Newt

open Spec

theorem rOf_eq_zero (p : Pt) : rOf p = 0 ↔ p.pos = 0 := modulus_eq_zero p.pos

theorem rOf_ne_zero (p : Pt) : rOf p ≠ 0 ↔ p.pos ≠ 0 := not_congr (rOf_eq_zero p)

/-! ## Spherical coordinates -/

theorem spherical_eq (r t f : ℝ) : spherical r t f = sphericalV r t f := rfl

theorem pyMod_two_pi_cos (x : ℝ) : Real.cos (pyMod x (2 * Real.pi)) = Real.cos x := by
  rw [pyMod, mul_comm]; exact Real.cos_sub_int_mul_two_pi x _

theorem pyMod_two_pi_sin (x : ℝ) : Real.sin (pyMod x (2 * Real.pi)) = Real.sin x := by
  rw [pyMod, mul_comm]; exact Real.sin_sub_int_mul_two_pi x _

theorem sin_arccos_nonneg (x : ℝ) : 0 ≤ Real.sin (Real.arccos x) := by
  rw [Real.sin_arccos]; exact Real.sqrt_nonneg _

/-- spherical coordinates of a non-zero vector -/
theorem spherical_coords (v : V3) (hv : v ≠ 0) (phi : ℝ)
    (hc : Real.cos phi = Real.cos (arctan2 (v 1) (v 0)))
    (hs : Real.sin phi = Real.sin (arctan2 (v 1) (v 0))) :
    sphericalV (modulus v) (Real.arccos (v 2 / modulus v)) phi = v := by
  have hm : modulus v ≠ 0 := fun e => hv ((modulus_eq_zero v).1 e)
  have hpos : 0 < modulus v := modulus_pos hv
  have h2 : modulus v ^ 2 = v 0 ^ 2 + v 1 ^ 2 + v 2 ^ 2 := Real.sq_sqrt (by positivity)
  have hb : |v 2 / modulus v| ≤ 1 := by
    rw [abs_div, abs_of_pos hpos, div_le_one hpos]
    apply abs_le_of_sq_le_sq _ hpos.le
    rw [h2]; nlinarith [sq_nonneg (v 0), sq_nonneg (v 1)]
  have hcos : Real.cos (Real.arccos (v 2 / modulus v)) = v 2 / modulus v :=
    Real.cos_arccos (abs_le.1 hb).1 (abs_le.1 hb).2
  set rho := Real.sqrt (v 0 ^ 2 + v 1 ^ 2) with hrho
  have hsin : modulus v * Real.sin (Real.arccos (v 2 / modulus v)) = rho := by
    rw [Real.sin_arccos, hrho]
    conv_lhs => lhs; rw [← Real.sqrt_sq hpos.le]
    rw [← Real.sqrt_mul (by positivity)]
    congr 1
    field_simp
    linarith
  have hn : ‖(⟨v 0, v 1⟩ : ℂ)‖ = rho := by
    rw [Complex.norm_def, hrho, Complex.normSq_mk]; congr 1; ring
  have hx : rho * Real.cos (arctan2 (v 1) (v 0)) = v 0 := by
    rw [← hn]; exact Complex.norm_mul_cos_arg ⟨v 0, v 1⟩
  have hy : rho * Real.sin (arctan2 (v 1) (v 0)) = v 1 := by
    rw [← hn]; exact Complex.norm_mul_sin_arg ⟨v 0, v 1⟩
  ext i
  fin_cases i
  · simp [sphericalV, hsin, hc, hx]
  · simp [sphericalV, hsin, hs, hy]
  · simp [sphericalV, hcos]; field_simp

theorem sphHarm_row (p : Pt) (hp : p.pos ≠ 0) (l : ℕ) (m : ℤ) (hm : m.natAbs ≤ l) :
    ((rOf p : ℝ) : ℂ) ^ l * (starRingEnd ℂ) (sphHarm m l (phiOf p) (thetaOf p)) =
      solidS l m p.pos := by
  rw [thetaOf, sphHarm_solid _ _ _ (sin_arccos_nonneg _) l m hm]
  rw [solidS]
  congr 2
  exact spherical_coords p.pos hp _ (pyMod_two_pi_cos _) (pyMod_two_pi_sin _)

/-! ## The index arrays -/

theorem ridsOf_nil : ridsOf [] = [] := by simp [ridsOf]

open Classical in
theorem ridsOf_cons (p : Pt) (A : PtArray) :
    ridsOf (p :: A) = if rOf p ≠ 0 then 0 :: (ridsOf A).map Nat.succ
      else (ridsOf A).map Nat.succ := by
  simp only [ridsOf, List.length_cons, List.range_succ_eq_map]
  rw [List.filter_cons, List.filter_map]
  have h : List.filter (isOff (p :: A) ∘ Nat.succ) (List.range A.length) =
      List.filter (isOff A) (List.range A.length) := by
    apply List.filter_congr
    intro i _
    simp [isOff]
  rw [h]
  simp [isOff]

theorem ridsOf_nodup (A : PtArray) : (ridsOf A).Nodup :=
  List.Nodup.filter _ List.nodup_range

theorem ridsOf_originLast (B O : PtArray) (hB : ∀ p ∈ B, p.pos ≠ 0) (hO : ∀ p ∈ O, p.pos = 0) :
    ridsOf (B ++ O) = List.range B.length := by
  induction B with
  | nil =>
    simp only [List.nil_append, List.length_nil, List.range_zero]
    induction O with
    | nil => exact ridsOf_nil
    | cons p O ih =>
      rw [ridsOf_cons, if_neg, ih (fun q hq => hO q (List.mem_cons_of_mem _ hq))]
      · rfl
      · rw [not_not, rOf_eq_zero]; exact hO p List.mem_cons_self
  | cons p B ih =>
    rw [List.cons_append, ridsOf_cons, if_pos,
      ih (fun q hq => hB q (List.mem_cons_of_mem _ hq)), List.length_cons, List.range_succ_eq_map]
    rw [rOf_ne_zero]; exact hB p List.mem_cons_self

theorem mapM_get_range {α : Type} (B O : List α) :
    (List.range B.length).mapM (fun i => (B ++ O)[i]?) = some B := by
  induction B with
  | nil => rfl
  | cons b B ih =>
    rw [List.length_cons, List.range_succ_eq_map, List.mapM_cons]
    simp only [List.cons_append, List.getElem?_cons_zero, List.mapM_map, Function.comp_def,
      Nat.succ_eq_add_one, List.getElem?_cons_succ]
    rw [ih]
    rfl

theorem offOrigin_originLast (B O : PtArray) (hB : ∀ p ∈ B, p.pos ≠ 0) (hO : ∀ p ∈ O, p.pos = 0) :
    offOrigin (B ++ O) = B := by
  rw [offOrigin, takeIds, ridsOf_originLast B O hB hO, mapM_get_range]; rfl

theorem takeIds_originLast (B O : PtArray) (hB : ∀ p ∈ B, p.pos ≠ 0) (hO : ∀ p ∈ O, p.pos = 0) :
    takeIds (anglesOf (B ++ O)) (ridsOf (B ++ O)) = some (B.map fun p => (phiOf p, thetaOf p)) := by
  rw [takeIds, anglesOf, offOrigin_originLast B O hB hO, ridsOf_originLast B O hB hO]
  have := mapM_get_range (B.map fun p => (phiOf p, thetaOf p)) []
  rwa [List.length_map, List.append_nil] at this

theorem takeIds_length {α : Type} (a : List α) : ∀ (rids : List ℕ) (b : List α),
    takeIds a rids = some b → b.length = rids.length
  | [], b, h => by cases h; rfl
  | i :: rids, b, h => by
    rw [takeIds, List.mapM_cons] at h
    rcases hi : a[i]? with _ | x
    · rw [hi] at h; cases h
    · rcases hr : rids.mapM (fun i => a[i]?) with _ | y
      · rw [hi, hr] at h; cases h
      · rw [hi, hr] at h
        cases h
        simpa using takeIds_length a rids y hr

theorem ridsOf_lt (A : PtArray) : ∀ i ∈ ridsOf A, i < A.length := by
  intro i hi
  simp only [ridsOf, List.mem_filter, List.mem_range] at hi
  exact hi.1

theorem offOrigin_length (A : PtArray) : (offOrigin A).length = (ridsOf A).length := by
  have : ∃ B, takeIds A (ridsOf A) = some B := by
    refine ⟨(ridsOf A).map fun i => A.getD i ⟨0, 0⟩, ?_⟩
    apply mapM_opt_some
    intro i hi
    have := ridsOf_lt A i hi
    simp [List.getD, this]
  obtain ⟨B, hB⟩ := this
  rw [offOrigin, hB]
  exact takeIds_length _ _ _ hB

theorem takeIds_angles_some_iff (A : PtArray) :
    (takeIds (anglesOf A) (ridsOf A)).isSome ↔ ∀ i ∈ ridsOf A, i < (ridsOf A).length := by
  have hl : (anglesOf A).length = (ridsOf A).length := by
    rw [anglesOf, List.length_map, offOrigin_length]
  constructor
  · intro h i hi
    by_contra hc
    have : takeIds (anglesOf A) (ridsOf A) = none :=
      mapM_opt_none _ _ ⟨i, hi, by rw [List.getElem?_eq_none]; omega⟩
    rw [this] at h; cases h
  · intro h
    have : takeIds (anglesOf A) (ridsOf A) =
        some ((ridsOf A).map fun i => (anglesOf A).getD i (0, 0)) := by
      apply mapM_opt_some
      intro i hi
      have := h i hi
      rw [← hl] at this
      simp [List.getD, this]
    rw [this]; rfl

theorem nodup_bound : ∀ (l : List ℕ) (n : ℕ), l.Nodup → (∀ i ∈ l, i < n) → l.length ≤ n := by
  intro l n hn h
  have : l ⊆ List.range n := fun i hi => List.mem_range.2 (h i hi)
  have := (hn.subperm this).length_le
  simpa using this

theorem rids_lt_iff_originLast : ∀ A : PtArray,
    (∀ i ∈ ridsOf A, i < (ridsOf A).length) ↔ OriginLast A
  | [] => by
    simp only [ridsOf_nil, List.not_mem_nil, false_implies, implies_true, true_iff]
    exact ⟨[], [], rfl, by simp, by simp⟩
  | p :: A => by
    have ih := rids_lt_iff_originLast A
    rw [ridsOf_cons]
    by_cases hp : p.pos = 0
    · rw [if_neg (by rw [not_not, rOf_eq_zero]; exact hp)]
      constructor
      · intro h
        have he : ridsOf A = [] := by
          by_contra hne
          have hb : ∀ i ∈ ridsOf A, i < (ridsOf A).length - 1 := by
            intro i hi
            have := h (i + 1) (List.mem_map.2 ⟨i, hi, rfl⟩)
            rw [List.length_map] at this
            omega
          have := nodup_bound _ _ (ridsOf_nodup A) hb
          have : 0 < (ridsOf A).length := List.length_pos_iff.2 hne
          omega
        refine ⟨[], p :: A, rfl, by simp, ?_⟩
        obtain ⟨B, O, rfl, hB, hO⟩ := ih.1 (by simp [he])
        rw [ridsOf_originLast B O hB hO] at he
        have : B = [] := by
          rw [List.range_eq_nil] at he
          exact List.length_eq_zero_iff.1 he
        subst this
        intro q hq
        rcases List.mem_cons.1 hq with rfl | hq
        · exact hp
        · exact hO q (by simpa using hq)
      · rintro ⟨B, O, e, hB, hO⟩
        cases B with
        | cons b B =>
          rw [List.cons_append, List.cons.injEq] at e
          exact absurd hp (e.1 ▸ hB b List.mem_cons_self)
        | nil =>
          simp only [List.nil_append] at e
          have := ridsOf_originLast [] A (by simp) (fun q hq => hO q (e ▸ List.mem_cons_of_mem _ hq))
          simp only [List.nil_append, List.length_nil, List.range_zero] at this
          simp [this]
    · rw [if_pos (by rw [rOf_ne_zero]; exact hp)]
      have h1 : (∀ i ∈ 0 :: (ridsOf A).map Nat.succ, i < (0 :: (ridsOf A).map Nat.succ).length) ↔
          ∀ i ∈ ridsOf A, i < (ridsOf A).length := by
        simp [Nat.succ_eq_add_one]
      rw [h1, ih]
      constructor
      · rintro ⟨B, O, rfl, hB, hO⟩
        exact ⟨p :: B, O, rfl, by
          intro q hq
          rcases List.mem_cons.1 hq with rfl | hq
          · exact hp
          · exact hB q hq, hO⟩
      · rintro ⟨B, O, e, hB, hO⟩
        cases B with
        | nil =>
          simp only [List.nil_append] at e
          exact absurd (hO p (e ▸ List.mem_cons_self)) hp
        | cons b B =>
          rw [List.cons_append, List.cons.injEq] at e
          exact ⟨B, O, e.2, fun q hq => hB q (List.mem_cons_of_mem _ hq), hO⟩

theorem takeIds_some_iff (A : PtArray) :
    (takeIds (anglesOf A) (ridsOf A)).isSome ↔ OriginLast A :=
  (takeIds_angles_some_iff A).trans (rids_lt_iff_originLast A)

/-! ## Symmetric families and `fillNeg` -/

theorem neg_one_zpow_natAbs (m : ℤ) : ((-1 : ℂ)) ^ m = (-1) ^ m.natAbs := by
  rcases Int.natAbs_eq m with h | h
  · conv_lhs => rw [h]
    exact zpow_natCast _ _
  · conv_lhs => rw [h]
    rw [zpow_neg, zpow_natCast, ← inv_pow]; norm_num

theorem neg_one_sq_pow (k : ℕ) : ((-1 : ℂ)) ^ k * (-1) ^ k = 1 := by
  rw [← mul_pow]; simp

theorem get_fillNeg_sym {L : ℕ} (f S : ℕ → ℤ → ℂ) (l : ℕ) (hl : l ≤ L)
    (hf : ∀ m : ℤ, m.natAbs ≤ L → f l m = if 0 ≤ m then S l m else 0)
    (hS : ∀ m : ℤ, m.natAbs ≤ L → S l (-m) = (-1) ^ m.natAbs * (starRingEnd ℂ) (S l m))
    (m : ℤ) (hm : m.natAbs ≤ L) :
    (Mom.ofFn L f).fillNeg.get l m = S l m := by
  have hm' : (-m).natAbs ≤ L := by omega
  rw [Mom.get_fillNeg _ hl hm, Mom.get_ofFn _ hl hm, Mom.get_ofFn _ hl hm', hf m hm, hf (-m) hm']
  simp only
  rcases lt_trichotomy m 0 with h | h | h
  · have h1 := hS (-m) hm'
    rw [neg_neg, Int.natAbs_neg] at h1
    rw [if_neg h.ne, if_neg (by omega), if_pos (by omega), zero_add, h1, mul_comm]
  · subst h
    have h1 := hS 0 (by simp)
    simp at h1
    simp [← h1]
  · rw [if_neg h.ne', if_pos (by omega), if_neg (by omega)]; simp

theorem solidS_neg (l : ℕ) (m : ℤ) (v : V3) :
    solidS l (-m) v = (-1) ^ m.natAbs * (starRingEnd ℂ) (solidS l m v) := by
  rw [solidS, solidS, Nlm_neg, Rsol_neg_m, map_mul, Complex.conj_ofReal, neg_one_zpow_natAbs]
  ring

theorem solidS_out (l : ℕ) (m : ℤ) (v : V3) (h : l < m.natAbs) : solidS l m v = 0 := by
  rw [solidS, Rsol_out, mul_zero]
  rw [Int.abs_eq_natAbs]; omega

theorem innerMoment_nil (l : ℕ) (m : ℤ) : innerMoment [] l m = 0 := rfl

theorem innerMoment_cons (p : Pt) (A : PtArray) (l : ℕ) (m : ℤ) :
    innerMoment (p :: A) l m = (p.mass : ℂ) * solidS l m p.pos + innerMoment A l m := by
  simp [innerMoment]

theorem innerMoment_append (A B : PtArray) (l : ℕ) (m : ℤ) :
    innerMoment (A ++ B) l m = innerMoment A l m + innerMoment B l m := by
  simp [innerMoment]

theorem innerMoment_neg (A : PtArray) (l : ℕ) (m : ℤ) :
    innerMoment A l (-m) = (-1) ^ m.natAbs * (starRingEnd ℂ) (innerMoment A l m) := by
  induction A with
  | nil => simp [innerMoment_nil]
  | cons p A ih =>
    rw [innerMoment_cons, innerMoment_cons, ih, solidS_neg, map_add, map_mul, Complex.conj_ofReal]
    ring

theorem innerMoment_out (A : PtArray) (l : ℕ) (m : ℤ) (h : l < m.natAbs) :
    innerMoment A l m = 0 := by
  induction A with
  | nil => rfl
  | cons p A ih => rw [innerMoment_cons, ih, solidS_out _ _ _ h]; simp

theorem innerMoment_origin (O : PtArray) (hO : ∀ p ∈ O, p.pos = 0) (l : ℕ) (hl : l ≠ 0) (m : ℤ) :
    innerMoment O l m = 0 := by
  induction O with
  | nil => rfl
  | cons p O ih =>
    rw [innerMoment_cons, ih (fun q hq => hO q (List.mem_cons_of_mem _ hq)),
      hO p List.mem_cons_self, solidS, Rsol_at_zero l hl]
    simp

theorem solidS_zero (m : ℤ) (v : V3) :
    solidS 0 m v = if m = 0 then ((1 / Real.sqrt (4 * Real.pi) : ℝ) : ℂ) else 0 := by
  by_cases h : m = 0
  · subst h
    rw [if_pos rfl, solidS, Rsol_zero_zero, mul_one, Nlm]
    congr 1
    simp
  · rw [if_neg h, solidS_out]; omega

theorem q00_eq (A : PtArray) :
    (A.map fun p => ((p.mass / Real.sqrt (4 * Real.pi) : ℝ) : ℂ)).sum = innerMoment A 0 0 := by
  rw [innerMoment]
  congr 1
  apply List.map_congr_left
  intro p _
  rw [solidS_zero, if_pos rfl]
  push_cast; ring

theorem sumConjHarm_eq (B : PtArray) (hB : ∀ p ∈ B, p.pos ≠ 0) (n : ℕ) (m : ℤ)
    (hm : m.natAbs ≤ n) :
    sumConjHarm (fun r => r ^ n) m n B (B.map fun p => (phiOf p, thetaOf p)) =
      innerMoment B n m := by
  induction B with
  | nil => rfl
  | cons p B ih =>
    rw [innerMoment_cons, ← ih (fun q hq => hB q (List.mem_cons_of_mem _ hq)),
      ← sphHarm_row p (hB p List.mem_cons_self) n m hm]
    simp only [sumConjHarm, List.map_cons, List.zipWith_cons_cons, List.sum_cons]
    congr 1
    push_cast
    ring

/-- Closed form of `qmoments`. -/
theorem qmoments_closed (L : ℕ) (A : PtArray) (h : L = 0 ∨ OriginLast A) :
    qmoments L A = some (Mom.ofFn L (innerMoment A)) := by
  have key : ∀ (ang : List (ℝ × ℝ)), (L ≠ 0 → ∃ B O, A = B ++ O ∧ (∀ p ∈ B, p.pos ≠ 0) ∧
      (∀ p ∈ O, p.pos = 0) ∧ ang = B.map fun p => (phiOf p, thetaOf p)) →
      (Mom.ofFn L fun n m =>
        if n = 0 then (if m = 0 then
          (A.map fun p => ((p.mass / Real.sqrt (4 * Real.pi) : ℝ) : ℂ)).sum else 0)
        else if 0 ≤ m ∧ m ≤ n then sumConjHarm (fun r => r ^ n) m n (offOrigin A) ang
        else 0).fillNeg = Mom.ofFn L (innerMoment A) := by
    intro ang hang
    apply Mom.ext_get
    intro l m hl hm
    rw [Mom.get_ofFn _ hl hm]
    apply get_fillNeg_sym _ (innerMoment A) l hl _ (fun m _ => innerMoment_neg A l m) m hm
    intro k _
    by_cases h0 : l = 0
    · subst h0
      rw [if_pos rfl, q00_eq]
      by_cases hk : k = 0
      · subst hk; simp
      · rw [if_neg hk, innerMoment_out A 0 k (by omega)]; simp
    · rw [if_neg h0]
      obtain ⟨B, O, rfl, hB, hO, rfl⟩ := hang (by omega)
      by_cases hk : 0 ≤ k
      · rw [if_pos hk]
        by_cases hk2 : k ≤ l
        · rw [if_pos ⟨hk, hk2⟩, offOrigin_originLast B O hB hO, sumConjHarm_eq B hB l k (by omega),
            innerMoment_append, innerMoment_origin O hO l h0, add_zero]
        · rw [if_neg (fun h => hk2 h.2), innerMoment_out _ _ _ (by omega)]
      · rw [if_neg hk, if_neg (fun h => hk h.1)]
  by_cases h0 : L = 0
  · simp only [qmoments, if_pos h0]
    congr 1
    exact key [] (fun h => absurd h0 h)
  · obtain ⟨B, O, rfl, hB, hO⟩ := h.resolve_left h0
    simp only [qmoments, if_neg h0, takeIds_originLast B O hB hO, Option.map_some]
    congr 1
    exact key _ (fun _ => ⟨B, O, rfl, hB, hO, rfl⟩)

theorem qmoments_none (L : ℕ) (A : PtArray) (hL : L ≠ 0) (h : ¬ OriginLast A) :
    qmoments L A = none := by
  have : takeIds (anglesOf A) (ridsOf A) = none := by
    rcases hh : takeIds (anglesOf A) (ridsOf A) with _ | b
    · rfl
    · exact absurd ((takeIds_some_iff A).1 (by rw [hh]; rfl)) h
  simp [qmoments, hL, this]

theorem _root_.Newt.Spec.OffOrigin.originLast {A : PtArray} (h : OffOrigin A) : OriginLast A :=
  ⟨A, [], by simp, h, by simp⟩

theorem get_ofFn_innerMoment (L : ℕ) (A : PtArray) {l : ℕ} {m : ℤ} (hl : l ≤ L)
    (hm : m.natAbs ≤ L) : (Mom.ofFn L (innerMoment A)).get l m = innerMoment A l m :=
  Mom.get_ofFn _ hl hm

end Newt
