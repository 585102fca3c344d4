import Verif.Proofs.Pg2Multi

/-! # More lemmas about `pg2Multi`: outer moments, single moments, Yukawa moments -/

namespace Newt

open Spec

theorem rOf_eq (p : Pt) : rOf p = modulus p.pos := rfl

theorem outerTerm_eq (p : Pt) (hp : p.pos ≠ 0) (l : ℕ) (m : ℤ) (hm : m.natAbs ≤ l) :
    outerTerm l m p = (p.mass : ℂ) * solidO l m p.pos := by
  have hr : ((rOf p : ℝ) : ℂ) ≠ 0 := by
    exact_mod_cast (rOf_ne_zero p).2 hp
  have h := congrArg (starRingEnd ℂ) (sphHarm_row p hp l m hm)
  simp only [map_mul, map_pow, Complex.conj_ofReal, Complex.conj_conj] at h
  rw [outerTerm, solidO, ← h, ← rOf_eq]
  push_cast
  field_simp
  ring

theorem outer_sum (A : PtArray) (hA : OffOrigin A) (l : ℕ) (m : ℤ) (hm : m.natAbs ≤ l) :
    (A.map (outerTerm l m)).sum = outerMoment A l m := by
  rw [outerMoment]
  congr 1
  apply List.map_congr_left
  intro p hp
  exact outerTerm_eq p (hA p hp) l m hm

theorem anyAtOrigin_iff (A : PtArray) : anyAtOrigin A ↔ ¬ OffOrigin A := by
  simp only [anyAtOrigin, OffOrigin, rOf_eq_zero]
  push Not
  rfl

theorem solidO_neg (l : ℕ) (m : ℤ) (v : V3) :
    solidO l (-m) v = (-1) ^ m.natAbs * (starRingEnd ℂ) (solidO l m v) := by
  rw [solidO, solidO, solidS_neg]
  simp only [map_mul, map_pow, map_neg, map_one, map_div₀, Complex.conj_conj, Complex.conj_ofReal]
  ring

theorem solidO_out (l : ℕ) (m : ℤ) (v : V3) (h : l < m.natAbs) : solidO l m v = 0 := by
  rw [solidO, solidS_out _ _ _ h]; simp

theorem outerMoment_cons (p : Pt) (A : PtArray) (l : ℕ) (m : ℤ) :
    outerMoment (p :: A) l m = (p.mass : ℂ) * solidO l m p.pos + outerMoment A l m := by
  simp [outerMoment]

theorem outerMoment_neg (A : PtArray) (l : ℕ) (m : ℤ) :
    outerMoment A l (-m) = (-1) ^ m.natAbs * (starRingEnd ℂ) (outerMoment A l m) := by
  induction A with
  | nil => simp [outerMoment]
  | cons p A ih =>
    rw [outerMoment_cons, outerMoment_cons, ih, solidO_neg, map_add, map_mul, Complex.conj_ofReal]
    ring

theorem outerMoment_out (A : PtArray) (l : ℕ) (m : ℤ) (h : l < m.natAbs) :
    outerMoment A l m = 0 := by
  induction A with
  | nil => rfl
  | cons p A ih => rw [outerMoment_cons, ih, solidO_out _ _ _ h]; simp

/-- Closed form of `Qmomentsb`. -/
theorem Qmomentsb_closed (L : ℕ) (A : PtArray) (hA : OffOrigin A) :
    Qmomentsb L A = Mom.ofFn L (outerMoment A) := by
  rw [Qmomentsb, if_neg (fun h => (anyAtOrigin_iff A).1 h hA)]
  apply Mom.ext_get
  intro l m hl hm
  rw [Mom.get_ofFn _ hl hm]
  apply get_fillNeg_sym _ (outerMoment A) l hl _ (fun m _ => outerMoment_neg A l m) m hm
  intro k _
  by_cases hk : 0 ≤ k
  · by_cases hk2 : k ≤ l
    · rw [if_pos ⟨hk, hk2⟩, if_pos hk, outer_sum A hA l k (by omega)]
    · rw [if_neg (fun h => hk2 h.2), outerMoment_out _ _ _ (by omega)]; simp
  · rw [if_neg hk, if_neg (fun h => hk h.1)]

/-! ## single inner moments -/

theorem takeIds_map_succ {α : Type} (x : α) (a : List α) (rids : List ℕ) :
    takeIds (x :: a) (rids.map Nat.succ) = takeIds a rids := by
  simp [takeIds, List.mapM_map, Function.comp_def]

open Classical in
theorem takeIds_ridsOf : ∀ A : PtArray,
    takeIds A (ridsOf A) = some (A.filter fun p => decide (p.pos ≠ 0))
  | [] => by simp [ridsOf_nil, takeIds]
  | p :: A => by
    have ih := takeIds_ridsOf A
    rw [ridsOf_cons]
    by_cases hp : p.pos = 0
    · rw [if_neg (by rw [not_not, rOf_eq_zero]; exact hp), takeIds_map_succ, ih]
      simp [hp]
    · rw [if_pos (by rw [rOf_ne_zero]; exact hp)]
      have h2 := takeIds_map_succ p A (ridsOf A)
      rw [takeIds, List.mapM_cons]
      change (do let y ← some p; let ys ← takeIds (p :: A) ((ridsOf A).map Nat.succ); pure (y :: ys)) = _
      rw [h2, ih, List.filter_cons, if_pos (by simpa using hp)]
      rfl

open Classical in
theorem offOrigin_eq (A : PtArray) : offOrigin A = A.filter fun p => decide (p.pos ≠ 0) := by
  rw [offOrigin, takeIds_ridsOf]; rfl

theorem innerMoment_offOrigin (A : PtArray) (l : ℕ) (hl : l ≠ 0) (m : ℤ) :
    innerMoment (offOrigin A) l m = innerMoment A l m := by
  classical
  rw [offOrigin_eq]
  induction A with
  | nil => rfl
  | cons p A ih =>
    rw [innerMoment_cons, List.filter_cons]
    by_cases hp : p.pos = 0
    · rw [if_neg (by simpa using hp), ih, hp, solidS, Rsol_at_zero l hl]; simp
    · rw [if_pos (by simpa using hp), innerMoment_cons, ih]

theorem anglesOf_length (A : PtArray) : (anglesOf A).length = (offOrigin A).length := by
  simp [anglesOf]

theorem sumConj_zip (l : ℕ) (m : ℤ) (hm : m.natAbs ≤ l) : ∀ (A : PtArray), OffOrigin A →
    (List.zipWith (· * ·) (A.map fun p => ((p.mass * rOf p ^ l : ℝ) : ℂ))
      ((A.map fun p => (phiOf p, thetaOf p)).map fun a =>
        (starRingEnd ℂ) (sphHarm m l a.1 a.2))).sum = innerMoment A l m
  | [], _ => rfl
  | p :: A, h => by
    rw [innerMoment_cons, ← sumConj_zip l m hm A (fun q hq => h q (List.mem_cons_of_mem _ hq)),
      ← sphHarm_row p (h p List.mem_cons_self) l m hm]
    simp only [List.map_cons, List.zipWith_cons_cons, List.sum_cons]
    congr 1
    push_cast
    ring

theorem offOrigin_off (A : PtArray) : OffOrigin (offOrigin A) := by
  classical
  intro p hp
  rw [offOrigin_eq, List.mem_filter] at hp
  simpa using hp.2

theorem offOrigin_length_eq_iff (A : PtArray) : (offOrigin A).length = A.length ↔ OffOrigin A := by
  classical
  rw [offOrigin_eq, List.length_filter_eq_length_iff]
  simp [OffOrigin]

theorem offOrigin_self {A : PtArray} (h : OffOrigin A) : offOrigin A = A := by
  classical
  rw [offOrigin_eq, List.filter_eq_self]
  intro p hp; simpa using h p hp

/-- weighted masses: points at the origin contribute nothing -/
theorem sum_w_offOrigin (l : ℕ) (hl : l ≠ 0) (c : ℂ) (A : PtArray) :
    ((A.map fun p => ((p.mass * rOf p ^ l : ℝ) : ℂ)).map fun a => a * c).sum =
      (((offOrigin A).map fun p => ((p.mass * rOf p ^ l : ℝ) : ℂ)).map fun a => a * c).sum := by
  classical
  rw [offOrigin_eq]
  induction A with
  | nil => rfl
  | cons p A ih =>
    rw [List.filter_cons]
    by_cases hp : p.pos = 0
    · rw [if_neg (by simpa using hp), ← ih]
      have : rOf p = 0 := (rOf_eq_zero p).2 hp
      simp [this, hl]
    · rw [if_pos (by simpa using hp)]
      simp only [List.map_cons, List.sum_cons, ih]

theorem sum_of_off_singleton (l : ℕ) (m : ℤ) (hm : m.natAbs ≤ l) (p : Pt) (hp : p.pos ≠ 0) :
    ((p.mass * rOf p ^ l : ℝ) : ℂ) * (starRingEnd ℂ) (sphHarm m l (phiOf p) (thetaOf p)) =
      innerMoment [p] l m := by
  rw [innerMoment_cons, innerMoment_nil, ← sphHarm_row p hp l m hm]
  push_cast; ring

open Classical in
/-- Whenever the broadcast is legal, `qmoment` is right; it is illegal exactly when some points are
at the origin, the number of other points is not one, and the array has more than one row. -/
theorem qmoment_closed (l : ℕ) (m : ℤ) (hm : m.natAbs ≤ l) (A : PtArray) :
    qmoment l m A =
      if l = 0 ∨ OffOrigin A ∨ (offOrigin A).length = 1 ∨ A.length = 1 then
        some (innerMoment A l m) else none := by
  by_cases hl : l = 0
  · subst hl
    have : m = 0 := by omega
    subst this
    rw [if_pos (Or.inl rfl), ← q00_eq]
    simp [qmoment]
  by_cases hoff : OffOrigin A
  · rw [if_pos (Or.inr (Or.inl hoff)), qmoment, if_neg hl]
    have h1 : anglesOf A = A.map fun p => (phiOf p, thetaOf p) := by
      rw [anglesOf, offOrigin_self hoff]
    simp only [h1, List.length_map, if_true]
    rw [← sumConj_zip l m hm A hoff]
  have hne : ¬ (A.length = (offOrigin A).length) := fun e =>
    hoff ((offOrigin_length_eq_iff A).1 e.symm)
  have hlen : (anglesOf A).length = (offOrigin A).length := anglesOf_length A
  by_cases hk : (offOrigin A).length = 1
  · rw [if_pos (by tauto), qmoment, if_neg hl]
    simp only [List.length_map, hlen, if_neg hne]
    obtain ⟨p, hp⟩ := List.length_eq_one_iff.1 hk
    have ha : (anglesOf A).map (fun a => (starRingEnd ℂ) (sphHarm m l a.1 a.2)) =
        [(starRingEnd ℂ) (sphHarm m l (phiOf p) (thetaOf p))] := by
      rw [anglesOf, hp]; rfl
    rw [ha]
    have hpp : p.pos ≠ 0 := offOrigin_off A p (by rw [hp]; simp)
    have h2 := sum_w_offOrigin l hl ((starRingEnd ℂ) (sphHarm m l (phiOf p) (thetaOf p))) A
    rw [hp] at h2
    simp only [List.map_cons, List.map_nil, List.sum_cons, List.sum_nil, add_zero] at h2
    simp only [h2]
    rw [sum_of_off_singleton l m hm p hpp, ← hp, innerMoment_offOrigin A l hl]
  by_cases hN : A.length = 1
  · obtain ⟨p, rfl⟩ := List.length_eq_one_iff.1 hN
    have h0 : offOrigin [p] = [] := by
      have : (offOrigin [p]).length ≤ 1 := by
        classical
        rw [offOrigin_eq]; exact List.length_filter_le _ _
      exact List.length_eq_zero_iff.1 (by omega)
    rw [if_pos (by tauto), qmoment, if_neg hl, ← innerMoment_offOrigin _ l hl, h0]
    simp [anglesOf, h0, innerMoment_nil]
  · rw [if_neg (by tauto), qmoment, if_neg hl]
    simp only [List.length_map, hlen, if_neg hne]
    rcases h : (anglesOf A) with _ | ⟨a, _ | ⟨b, t⟩⟩
    · rcases A with _ | ⟨x, _ | ⟨y, u⟩⟩
      · rw [h] at hlen; simp at hlen; simp [← hlen] at hne
      · simp at hN
      · simp
    · rw [h] at hlen; simp at hlen; omega
    · rcases A with _ | ⟨x, _ | ⟨y, u⟩⟩
      · simp [offOrigin_eq] at hlen; rw [h] at hlen; simp at hlen
      · simp at hN
      · simp

end Newt
