import Verif.Proofs.Pg2Multi2
import Mathlib.Analysis.Real.Pi.Bounds

/-!
# Properties C11-C16 of `newt/pg2Multi.py`
-/

namespace Newt

open Spec

/-! ## bridging lemmas -/

theorem solidS_spherical (s : SphPt) (hs : s.Ok) (l : ℕ) (m : ℤ) (hm : m.natAbs ≤ l) :
    solidS l m s.toPt.pos = (s.r : ℂ) ^ l * (starRingEnd ℂ) (sphHarm m l s.phi s.theta) := by
  rw [sphHarm_solid _ _ _ (Real.sin_nonneg_of_nonneg_of_le_pi hs.2.1 hs.2.2) l m hm]
  rfl

theorem spherical_norm (s : SphPt) (hs : s.Ok) : modulus s.toPt.pos = s.r := by
  have : s.toPt.pos 0 ^ 2 + s.toPt.pos 1 ^ 2 + s.toPt.pos 2 ^ 2 = s.r ^ 2 := by
    simp only [SphPt.toPt, spherical, Matrix.cons_val_zero, Matrix.cons_val_one, Matrix.cons_val]
    linear_combination (s.r ^ 2 * Real.sin s.theta ^ 2) * Real.sin_sq_add_cos_sq s.phi +
      s.r ^ 2 * Real.sin_sq_add_cos_sq s.theta
  rw [modulus, this, Real.sqrt_sq hs.1.le]

theorem spherical_ne_zero (s : SphPt) (hs : s.Ok) : s.toPt.pos ≠ 0 := by
  intro h
  have := spherical_norm s hs
  rw [h, (modulus_eq_zero 0).2 rfl] at this
  exact hs.1.ne this

/-- Every point off the origin has spherical coordinates, so the theorems below that quantify over
rows in spherical coordinates cover every array without a point at the origin. -/
theorem exists_spherical (p : Pt) (hp : p.pos ≠ 0) : ∃ s : SphPt, s.Ok ∧ s.toPt = p := by
  refine ⟨⟨p.mass, rOf p, thetaOf p, phiOf p⟩, ⟨?_, Real.arccos_nonneg _, Real.arccos_le_pi _⟩, ?_⟩
  · exact lt_of_le_of_ne (Real.sqrt_nonneg _) (Ne.symm ((rOf_ne_zero p).2 hp))
  · have := spherical_coords p.pos hp (phiOf p) (pyMod_two_pi_cos _) (pyMod_two_pi_sin _)
    rw [SphPt.toPt]
    cases p
    exact congrArg (Pt.mk _) this

theorem exists_spherical_rows : ∀ (A : PtArray), OffOrigin A →
    ∃ S : List SphPt, (∀ s ∈ S, s.Ok) ∧ S.map SphPt.toPt = A
  | [], _ => ⟨[], by simp, rfl⟩
  | p :: A, h => by
    obtain ⟨S, hS, rfl⟩ := exists_spherical_rows A fun q hq => h q (List.mem_cons_of_mem _ hq)
    obtain ⟨s, hs, rfl⟩ := exists_spherical p (h p List.mem_cons_self)
    exact ⟨s :: S, by simpa using ⟨hs, hS⟩, rfl⟩

theorem offOrigin_rows (S : List SphPt) (hS : ∀ s ∈ S, s.Ok) : OffOrigin (S.map SphPt.toPt) := by
  intro p hp
  obtain ⟨s, hs, rfl⟩ := List.mem_map.1 hp
  exact spherical_ne_zero s (hS s hs)

theorem originLast_iff : ∀ A : PtArray, OriginLast A ↔ ¬ OffAfterOrigin A := by
  intro A
  constructor
  · rintro ⟨B, O, rfl, hB, hO⟩ ⟨i, j, p, q, hij, hi, hj, hp, hq⟩
    have hiB : B.length ≤ i := by
      by_contra hlt
      rw [List.getElem?_append_left (by omega)] at hi
      exact hB p (List.mem_of_getElem? hi) hp
    rw [List.getElem?_append_right (by omega)] at hj
    exact hq (hO q (List.mem_of_getElem? hj))
  · induction A with
    | nil => intro _; exact ⟨[], [], rfl, by simp, by simp⟩
    | cons p A ih =>
      intro h
      by_cases hp : p.pos = 0
      · refine ⟨[], p :: A, rfl, by simp, ?_⟩
        intro q hq
        rcases List.mem_cons.1 hq with rfl | hq
        · exact hp
        · by_contra hq0
          obtain ⟨j, hj⟩ := List.mem_iff_getElem?.1 hq
          exact h ⟨0, j + 1, p, q, by omega, rfl, by simpa using hj, hp, hq0⟩
      · obtain ⟨B, O, rfl, hB, hO⟩ := ih (fun ⟨i, j, a, b, hij, hi, hj, ha, hb⟩ =>
          h ⟨i + 1, j + 1, a, b, by omega, by simpa using hi, by simpa using hj, ha, hb⟩)
        exact ⟨p :: B, O, rfl, by simpa using ⟨hp, hB⟩, hO⟩

/-! ## C11 -/

/-- C11.  `qmoments` on an array given in spherical coordinates (any valid choice of them). -/
theorem C11_qmoments_spherical (L : ℕ) (S : List SphPt) (hS : ∀ s ∈ S, s.Ok) :
    ∃ q, qmoments L (S.map SphPt.toPt) = some q ∧
      (∀ (l : ℕ) (m : ℤ), l ≤ L → m.natAbs ≤ l → q.get l m =
        (S.map fun s => (s.mass : ℂ) * (s.r : ℂ) ^ l *
          (starRingEnd ℂ) (sphHarm m l s.phi s.theta)).sum) ∧
      (∀ (l : ℕ) (m : ℤ), l ≤ L → m.natAbs ≤ L → l < m.natAbs → q.get l m = 0) ∧
      (∀ (l : ℕ) (m : ℤ), l ≤ L → m.natAbs ≤ L →
        q.get l (-m) = (-1) ^ m.natAbs * (starRingEnd ℂ) (q.get l m)) := by
  refine ⟨_, qmoments_closed L _ (Or.inr (offOrigin_rows S hS).originLast), ?_, ?_, ?_⟩
  · intro l m hl hm
    rw [Mom.get_ofFn _ hl (by omega), innerMoment, List.map_map]
    congr 1
    apply List.map_congr_left
    intro s hs
    rw [Function.comp, solidS_spherical s (hS s hs) l m hm, mul_assoc]
    rfl
  · intro l m hl hm h
    rw [Mom.get_ofFn _ hl hm, innerMoment_out _ _ _ h]
  · intro l m hl hm
    rw [Mom.get_ofFn _ hl (by omega), Mom.get_ofFn _ hl hm, innerMoment_neg]

/-- C11, Cartesian form, and the moment array is valid. -/
theorem C11_qmoments_cartesian (L : ℕ) (A : PtArray) (hA : OffOrigin A) :
    ∃ q, qmoments L A = some q ∧ Valid q ∧
      ∀ (l : ℕ) (m : ℤ), l ≤ L → m.natAbs ≤ L → q.get l m = innerMoment A l m := by
  refine ⟨_, qmoments_closed L A (Or.inr hA.originLast), ⟨?_, ?_⟩, ?_⟩
  · intro l m hl hm
    rw [Mom.get_ofFn _ hl (by omega), Mom.get_ofFn _ hl hm, innerMoment_neg]
  · intro l m hl hm h
    rw [Mom.get_ofFn _ hl hm, innerMoment_out _ _ _ h]
  · intro l m hl hm
    rw [Mom.get_ofFn _ hl hm]

/-- C11, the first degrees written out: monopole and dipole. -/
theorem C11_low_degrees (L : ℕ) (hL : 1 ≤ L) (A : PtArray) (hA : OffOrigin A) (q : Mom L)
    (hq : qmoments L A = some q) :
    q.get 0 0 = (((A.map fun p => p.mass).sum / Real.sqrt (4 * Real.pi) : ℝ) : ℂ) ∧
    q.get 1 0 = ((Real.sqrt (3 / (4 * Real.pi)) * (A.map fun p => p.mass * p.pos 2).sum : ℝ) : ℂ) ∧
    q.get 1 1 = ((-Real.sqrt (3 / (8 * Real.pi)) : ℝ) : ℂ) *
      (A.map fun p => (p.mass : ℂ) * ((p.pos 0 : ℂ) - Complex.I * p.pos 1)).sum := by
  obtain ⟨q', hq', -, h⟩ := C11_qmoments_cartesian L A hA
  rw [hq] at hq'
  obtain rfl := Option.some.inj hq'
  have hcast : ∀ f : Pt → ℝ, (((A.map f).sum : ℝ) : ℂ) = (A.map fun p => ((f p : ℝ) : ℂ)).sum := by
    intro f
    rw [← Complex.ofRealHom_eq_coe, map_list_sum, List.map_map]
    rfl
  have hsum : ∀ (c : ℂ) (f g : Pt → ℂ), (∀ p, f p = c * g p) →
      (A.map f).sum = c * (A.map g).sum := by
    intro c f g hfg
    rw [← List.sum_map_mul_left]
    congr 1
    exact List.map_congr_left fun p _ => hfg p
  refine ⟨?_, ?_, ?_⟩
  · rw [h 0 0 (by omega) (by simp), innerMoment, hsum ((1 / Real.sqrt (4 * Real.pi) : ℝ) : ℂ) _
      (fun p => ((p.mass : ℝ) : ℂ))]
    · rw [Complex.ofReal_div ((A.map _).sum), hcast, Complex.ofReal_div, Complex.ofReal_one]
      ring
    · intro p; rw [solidS_zero, if_pos rfl]; ring
  · rw [h 1 0 (by omega) (by simp), innerMoment, hsum ((Real.sqrt (3 / (4 * Real.pi)) : ℝ) : ℂ) _
      (fun p => ((p.mass * p.pos 2 : ℝ) : ℂ))]
    · rw [Complex.ofReal_mul, hcast]
    · intro p
      have h1 : Rsol 1 0 p.pos = p.pos 2 := by
        simp [Rsol, zc, uPoly, Polynomial.coeff_X_pow, Polynomial.coeff_X, Polynomial.coeff_C]
      have h2 : Nlm 1 0 = Real.sqrt (3 / (4 * Real.pi)) := by
        rw [Nlm]; congr 1; norm_num
      rw [solidS, h1, h2]; push_cast; ring
  · rw [h 1 1 (by omega) (by simpa using hL), innerMoment]
    apply hsum
    intro p
    have h1 : Rsol 1 1 p.pos = -((p.pos 0 : ℂ) - Complex.I * p.pos 1) / 2 := by
      have e : ((1 : ℕ) : ℤ) + 1 = ((2 : ℕ) : ℤ) := by norm_num
      rw [Rsol, e, zc_nat]
      simp [uPoly, Polynomial.coeff_X_pow, Polynomial.coeff_X, Polynomial.coeff_C]
    have h2 : Nlm 1 1 = 2 * Real.sqrt (3 / (8 * Real.pi)) := by
      rw [Nlm, show (2 : ℝ) = Real.sqrt 4 by rw [show (4:ℝ) = 2 ^ 2 by norm_num]; simp,
        ← Real.sqrt_mul (by norm_num)]
      congr 1
      rw [show (Real.sqrt 4 : ℝ) = 2 by rw [show (4:ℝ) = 2 ^ 2 by norm_num]; simp]
      norm_num [Nat.factorial]
      rw [show (Int.toNat 2).factorial = 2 from rfl]
      push_cast
      ring
    rw [solidS, h1, h2]; push_cast; ring

/-- two points, one of them negative, in generic position -/
noncomputable def exS : List SphPt := [⟨2, 1, 1, 3⟩, ⟨-1, 2, 2, 5⟩]

example : ∀ s ∈ exS, s.Ok := by
  intro s hs
  simp only [exS, List.mem_cons, List.not_mem_nil, or_false] at hs
  rcases hs with rfl | rfl <;> refine ⟨?_, ?_, ?_⟩ <;> norm_num <;> linarith [Real.pi_gt_three]

/-! ## C12 -/

/-- C12. -/
theorem C12_cutoff (L L' : ℕ) (A : PtArray) (q : Mom L) (q' : Mom L')
    (h : qmoments L A = some q) (h' : qmoments L' A = some q') (l : ℕ) (m : ℤ)
    (hl : l ≤ L) (hl' : l ≤ L') (hm : m.natAbs ≤ L) (hm' : m.natAbs ≤ L') :
    q.get l m = q'.get l m := by
  have key : ∀ (K : ℕ) (p : Mom K), qmoments K A = some p → p = Mom.ofFn K (innerMoment A) := by
    intro K p hp
    by_cases hK : K = 0 ∨ OriginLast A
    · rw [qmoments_closed K A hK] at hp
      exact (Option.some.inj hp).symm
    · rw [qmoments_none K A (fun h => hK (Or.inl h)) (fun h => hK (Or.inr h))] at hp
      exact absurd hp (by simp)
  rw [key L q h, key L' q' h', Mom.get_ofFn _ hl hm, Mom.get_ofFn _ hl' hm']

/-- C12 for the outer moments. -/
theorem C12_cutoff_outer (L L' : ℕ) (A : PtArray) (l : ℕ) (m : ℤ)
    (hl : l ≤ L) (hl' : l ≤ L') (hm : m.natAbs ≤ L) (hm' : m.natAbs ≤ L') :
    (Qmomentsb L A).get l m = (Qmomentsb L' A).get l m := by
  by_cases hA : OffOrigin A
  · rw [Qmomentsb_closed L A hA, Qmomentsb_closed L' A hA, Mom.get_ofFn _ hl hm,
      Mom.get_ofFn _ hl' hm']
  · rw [Qmomentsb, Qmomentsb, if_pos ((anyAtOrigin_iff A).2 hA), if_pos ((anyAtOrigin_iff A).2 hA),
      Mom.get_ofFn _ hl hm, Mom.get_ofFn _ hl' hm']

/-! ## C13 -/

/-- C13: failure. -/
theorem C13_fails_iff (L : ℕ) (A : PtArray) :
    qmoments L A = none ↔ 1 ≤ L ∧ OffAfterOrigin A := by
  by_cases h : L = 0 ∨ OriginLast A
  · rw [qmoments_closed L A h, originLast_iff] at *
    constructor
    · intro h; simp at h
    · rintro ⟨h1, h2⟩
      rcases h with h | h
      · omega
      · exact absurd h2 h
  · rw [qmoments_none L A (fun e => h (Or.inl e)) (fun e => h (Or.inr e))]
    rw [originLast_iff] at h
    constructor
    · intro _; exact ⟨by omega, by tauto⟩
    · intro _; rfl

/-- C13: otherwise the moments are right; a point at the origin counts in the monopole only. -/
theorem C13_otherwise_correct (L : ℕ) (A : PtArray) (h : ¬ OffAfterOrigin A) :
    ∃ q, qmoments L A = some q ∧
      ∀ (l : ℕ) (m : ℤ), l ≤ L → m.natAbs ≤ L → q.get l m = innerMoment A l m := by
  refine ⟨_, qmoments_closed L A (Or.inr ((originLast_iff A).2 h)), ?_⟩
  intro l m hl hm
  rw [Mom.get_ofFn _ hl hm]

/-- a point at the origin first, then a point on the x axis: the failing order -/
noncomputable def exBad : PtArray := [⟨1, 0⟩, ⟨1, ![1, 0, 0]⟩]

theorem exBad_off : OffAfterOrigin exBad :=
  ⟨0, 1, _, _, by omega, rfl, rfl, rfl, fun h => by simpa using congrFun h 0⟩

example : qmoments 3 exBad = none := (C13_fails_iff 3 exBad).2 ⟨by omega, exBad_off⟩

/-- the same two points in the other order succeed -/
example : ∃ q, qmoments 3 exBad.reverse = some q := by
  have : ¬ OffAfterOrigin exBad.reverse := by
    rw [← originLast_iff]
    exact ⟨[⟨1, ![1, 0, 0]⟩], [⟨1, 0⟩], rfl, by
      simp, by simp⟩
  obtain ⟨q, hq, -⟩ := C13_otherwise_correct 3 _ this
  exact ⟨q, hq⟩

/-! ## C14 -/

theorem innerMoment_scaleMass (s : ℝ) (A : PtArray) (l : ℕ) (m : ℤ) :
    innerMoment (scaleMass s A) l m = s * innerMoment A l m := by
  induction A with
  | nil => simp [scaleMass, innerMoment]
  | cons p A ih =>
    rw [innerMoment_cons, mul_add, ← ih]
    simp [scaleMass, innerMoment]
    ring

theorem innerMoment_scalePos (s : ℝ) (A : PtArray) (l : ℕ) (m : ℤ) :
    innerMoment (scalePos s A) l m = s ^ l * innerMoment A l m := by
  induction A with
  | nil => simp [scalePos, innerMoment]
  | cons p A ih =>
    rw [innerMoment_cons, mul_add, ← ih]
    simp only [scalePos, List.map_cons, innerMoment_cons, solidS, Rsol_smul]
    ring

theorem outerMoment_scaleMass (s : ℝ) (A : PtArray) (l : ℕ) (m : ℤ) :
    outerMoment (scaleMass s A) l m = s * outerMoment A l m := by
  induction A with
  | nil => simp [scaleMass, outerMoment]
  | cons p A ih =>
    rw [outerMoment_cons, mul_add, ← ih]
    simp [scaleMass, outerMoment]
    ring

theorem modulus_smul' (s : ℝ) (v : V3) : modulus (s • v) = |s| * modulus v := by
  rw [modulus, modulus, ← Real.sqrt_sq_eq_abs, ← Real.sqrt_mul (sq_nonneg s)]
  congr 1
  simp only [Pi.smul_apply, smul_eq_mul]; ring

theorem outerMoment_scalePos (s : ℝ) (hs : 0 < s) (A : PtArray) (l : ℕ) (m : ℤ) :
    outerMoment (scalePos s A) l m = outerMoment A l m / s ^ (l + 1) := by
  have hs' : (s : ℂ) ≠ 0 := by exact_mod_cast hs.ne'
  induction A with
  | nil => simp [scalePos, outerMoment]
  | cons p A ih =>
    rw [outerMoment_cons, add_div, ← ih]
    simp only [scalePos, List.map_cons, outerMoment_cons]
    congr 1
    rw [solidO, solidO, solidS, solidS, Rsol_smul, modulus_smul', abs_of_pos hs]
    simp only [map_mul, map_pow, Complex.conj_ofReal]
    push_cast
    rw [mul_pow, show 2 * l + 1 = l + (l + 1) by ring, pow_add (s : ℂ)]
    field_simp

theorem scaleMass_off {s : ℝ} {A : PtArray} (h : OffOrigin A) : OffOrigin (scaleMass s A) := by
  intro p hp
  simp only [scaleMass, List.mem_map] at hp
  obtain ⟨q, hq, rfl⟩ := hp
  exact h q hq

theorem scalePos_off {s : ℝ} (hs : s ≠ 0) {A : PtArray} (h : OffOrigin A) :
    OffOrigin (scalePos s A) := by
  intro p hp
  simp only [scalePos, List.mem_map] at hp
  obtain ⟨q, hq, rfl⟩ := hp
  exact smul_ne_zero hs (h q hq)

theorem append_off {A B : PtArray} (hA : OffOrigin A) (hB : OffOrigin B) : OffOrigin (A ++ B) := by
  intro p hp
  rcases List.mem_append.1 hp with h | h
  · exact hA p h
  · exact hB p h

/-- C14, inner moments. -/
theorem C14_inner (L : ℕ) (A B : PtArray) (hA : OffOrigin A) (hB : OffOrigin B) (s : ℝ)
    (hs : s ≠ 0) :
    ∃ qA qB qAB qM qP, qmoments L A = some qA ∧ qmoments L B = some qB ∧
      qmoments L (A ++ B) = some qAB ∧ qmoments L (scaleMass s A) = some qM ∧
      qmoments L (scalePos s A) = some qP ∧
      ∀ (l : ℕ) (m : ℤ), l ≤ L → m.natAbs ≤ L →
        qAB.get l m = qA.get l m + qB.get l m ∧
        qM.get l m = s * qA.get l m ∧
        qP.get l m = s ^ l * qA.get l m := by
  refine ⟨_, _, _, _, _, qmoments_closed L _ (Or.inr hA.originLast),
    qmoments_closed L _ (Or.inr hB.originLast),
    qmoments_closed L _ (Or.inr (append_off hA hB).originLast),
    qmoments_closed L _ (Or.inr (scaleMass_off hA).originLast),
    qmoments_closed L _ (Or.inr (scalePos_off hs hA).originLast), ?_⟩
  intro l m hl hm
  simp only [Mom.get_ofFn _ hl hm]
  exact ⟨innerMoment_append A B l m, innerMoment_scaleMass s A l m, innerMoment_scalePos s A l m⟩

/-- C14, outer moments. -/
theorem C14_outer (L : ℕ) (A B : PtArray) (hA : OffOrigin A) (hB : OffOrigin B) (s : ℝ)
    (hs : 0 < s) (l : ℕ) (m : ℤ) (hl : l ≤ L) (hm : m.natAbs ≤ L) :
    (Qmomentsb L (A ++ B)).get l m = (Qmomentsb L A).get l m + (Qmomentsb L B).get l m ∧
    (Qmomentsb L (scaleMass s A)).get l m = s * (Qmomentsb L A).get l m ∧
    (Qmomentsb L (scalePos s A)).get l m = (Qmomentsb L A).get l m / s ^ (l + 1) := by
  rw [Qmomentsb_closed L _ (append_off hA hB), Qmomentsb_closed L _ hA, Qmomentsb_closed L _ hB,
    Qmomentsb_closed L _ (scaleMass_off hA), Qmomentsb_closed L _ (scalePos_off hs.ne' hA)]
  simp only [Mom.get_ofFn _ hl hm]
  refine ⟨by simp [outerMoment], outerMoment_scaleMass s A l m, outerMoment_scalePos s hs A l m⟩

/-! ## C15 -/

/-- C15, inner. -/
theorem C15_qmoment (L l : ℕ) (m : ℤ) (hl : l ≤ L) (hm : m.natAbs ≤ l) (A : PtArray)
    (hA : OffOrigin A) :
    ∃ q, qmoments L A = some q ∧ qmoment l m A = some (q.get l m) := by
  classical
  refine ⟨_, qmoments_closed L A (Or.inr hA.originLast), ?_⟩
  rw [qmoment_closed l m hm A, if_pos (Or.inr (Or.inl hA)), Mom.get_ofFn _ hl (by omega)]

theorem Qmomentb_closed (l : ℕ) (m : ℤ) (hm : m.natAbs ≤ l) (A : PtArray) (hA : OffOrigin A) :
    Qmomentb l m A = outerMoment A l m := by
  rw [Qmomentb, if_neg (fun h => (anyAtOrigin_iff A).1 h hA), outer_sum A hA l m hm]

/-- C15, outer (also with points at the origin: both are then zero). -/
theorem C15_Qmomentb (L l : ℕ) (m : ℤ) (hl : l ≤ L) (hm : m.natAbs ≤ l) (A : PtArray) :
    Qmomentb l m A = (Qmomentsb L A).get l m := by
  by_cases hA : OffOrigin A
  · rw [Qmomentb_closed l m hm A hA, Qmomentsb_closed L A hA, Mom.get_ofFn _ hl (by omega)]
  · rw [Qmomentb, Qmomentsb, if_pos ((anyAtOrigin_iff A).2 hA), if_pos ((anyAtOrigin_iff A).2 hA),
      Mom.get_ofFn _ hl (by omega)]

/-- C15, what `qmoment` does with points at the origin: for `l >= 1` it raises exactly when some
point is at the origin, the array has at least two rows and the number of rows away from the origin
is not one. -/
theorem C15_qmoment_fails_iff (l : ℕ) (m : ℤ) (hm : m.natAbs ≤ l) (A : PtArray) :
    qmoment l m A = none ↔ 1 ≤ l ∧ (∃ p ∈ A, p.pos = 0) ∧ A.length ≠ 1 ∧
      ∀ p, (∃ B C : PtArray, A = B ++ p :: C ∧ p.pos ≠ 0 ∧ (∀ q ∈ B, q.pos = 0) ∧
        (∀ q ∈ C, q.pos = 0)) → False := by
  classical
  have h1 : OffOrigin A ↔ ¬ ∃ p ∈ A, p.pos = 0 := by simp [OffOrigin]
  have h2 : (offOrigin A).length = 1 ↔ ∃ p, ∃ B C : PtArray, A = B ++ p :: C ∧ p.pos ≠ 0 ∧
      (∀ q ∈ B, q.pos = 0) ∧ (∀ q ∈ C, q.pos = 0) := by
    rw [offOrigin_eq, List.length_eq_one_iff]
    constructor
    · rintro ⟨p, hp⟩
      rw [List.filter_eq_cons_iff] at hp
      obtain ⟨B, C, rfl, hB, hp, hC⟩ := hp
      rw [List.filter_eq_nil_iff] at hC
      exact ⟨p, B, C, rfl, by simpa using hp, by simpa using hB, by simpa using hC⟩
    · rintro ⟨p, B, C, rfl, hp, hB, hC⟩
      refine ⟨p, ?_⟩
      rw [List.filter_append, List.filter_cons, if_pos (by simpa using hp),
        List.filter_eq_nil_iff.2 (by simpa using hB), List.filter_eq_nil_iff.2 (by simpa using hC)]
      rfl
  rw [qmoment_closed l m hm A]
  split_ifs with h
  · constructor
    · intro h'; simp at h'
    · rintro ⟨h3, h4, h5, h6⟩
      rcases h with h | h | h | h
      · omega
      · exact absurd h4 (h1.1 h)
      · obtain ⟨p, hp⟩ := h2.1 h
        exact absurd (h6 p hp) id
      · exact absurd h h5
  · simp only [true_iff]
    refine ⟨by omega, ?_, by tauto, ?_⟩
    · by_contra hc; exact h (Or.inr (Or.inl (h1.2 hc)))
    · intro p hp; exact h (Or.inr (Or.inr (Or.inl (h2.2 ⟨p, hp⟩))))

/-- an array on which `qmoment` raises: one point at the origin and two others -/
example : qmoment 1 0 [⟨1, 0⟩, ⟨1, ![1, 0, 0]⟩, ⟨1, ![0, 1, 0]⟩] = none := by
  have hx : (![1, 0, 0] : V3) ≠ 0 := fun h => by simpa using congrFun h 0
  have hy : (![0, 1, 0] : V3) ≠ 0 := fun h => by simpa using congrFun h 1
  classical
  rw [qmoment_closed 1 0 (by simp), if_neg]
  rw [offOrigin_eq]
  simp [OffOrigin, hx, hy]

/-! ## C16 -/

/-- C16, on an array given in spherical coordinates. -/
theorem C16_Qmomentsb_spherical (L : ℕ) (S : List SphPt) (hS : ∀ s ∈ S, s.Ok) (l : ℕ) (m : ℤ)
    (hl : l ≤ L) (hm : m.natAbs ≤ l) :
    (Qmomentsb L (S.map SphPt.toPt)).get l m =
      (S.map fun s => (s.mass : ℂ) * sphHarm m l s.phi s.theta / (s.r : ℂ) ^ (l + 1)).sum := by
  rw [Qmomentsb_closed L _ (offOrigin_rows S hS), Mom.get_ofFn _ hl (by omega), outerMoment,
    List.map_map]
  congr 1
  apply List.map_congr_left
  intro s hs
  have hr : (s.r : ℂ) ≠ 0 := by exact_mod_cast (hS s hs).1.ne'
  rw [Function.comp, solidO, solidS_spherical s (hS s hs) l m hm, spherical_norm s (hS s hs)]
  simp only [map_mul, map_pow, Complex.conj_ofReal, Complex.conj_conj]
  push_cast
  change (s.mass : ℂ) * _ = _
  rw [show 2 * l + 1 = l + (l + 1) by ring, pow_add (s.r : ℂ) l]
  field_simp

/-- C16, outer arrays are valid moment arrays. -/
theorem C16_Qmomentsb_valid (L : ℕ) (A : PtArray) : Valid (Qmomentsb L A) := by
  by_cases hA : OffOrigin A
  · rw [Qmomentsb_closed L A hA]
    constructor
    · intro l m hl hm
      rw [Mom.get_ofFn _ hl (by omega), Mom.get_ofFn _ hl hm, outerMoment_neg]
    · intro l m hl hm h
      rw [Mom.get_ofFn _ hl hm, outerMoment_out _ _ _ h]
  · rw [Qmomentsb, if_pos ((anyAtOrigin_iff A).2 hA)]
    constructor
    · intro l m hl hm
      rw [Mom.get_ofFn _ hl (by omega), Mom.get_ofFn _ hl hm]; simp
    · intro l m hl hm h
      rw [Mom.get_ofFn _ hl hm]

/-- C16, one point at the origin wipes out every outer moment. -/
theorem C16_origin_zero (L : ℕ) (A : PtArray) (p : Pt) (hp : p ∈ A) (h0 : p.pos = 0) (l : ℕ)
    (m : ℤ) (hl : l ≤ L) (hm : m.natAbs ≤ L) : (Qmomentsb L A).get l m = 0 := by
  rw [Qmomentsb, if_pos ((anyAtOrigin_iff A).2 (fun h => h p hp h0)), Mom.get_ofFn _ hl hm]

example : (Qmomentsb 2 (exBad)).get 1 1 = 0 :=
  C16_origin_zero 2 exBad ⟨1, 0⟩ (by simp [exBad]) rfl 1 1 (by omega) (by simp)

end Newt
