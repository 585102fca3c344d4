import Verif.Proofs.WignerRot
import Verif.Props.Translations

/-!
# Properties C25-C28, C46 and C47 of `newt/rotations.py`
-/

namespace Newt

open Spec

/-! ## closed form of `rotate_qlm` -/

theorem bigD_zero (alpha beta gamma : ℝ) : bigD 0 alpha beta gamma 0 0 = 1 := by
  simp [bigD, smalld, dcs, wM, wp, wt_ne]

theorem rotate_qlm_closed {L : ℕ} (q : Mom L) (alpha beta gamma : ℝ) :
    rotate_qlm q alpha beta gamma = some (Mom.ofFn L fun l m =>
      if m.natAbs ≤ l then ∑ n ∈ Finset.Icc (-(l : ℤ)) l, bigD l alpha beta gamma m n * q.get l n
      else q.get l m) := by
  obtain ⟨ds, h1, -, h3⟩ := wignerDl_some (L + 1) (by omega) alpha beta gamma
  rw [rotate_qlm, h1, Option.map_some]
  congr 1
  apply Mom.ext_get
  intro l m hl hm
  rw [applyD, Mom.get_ofFn _ hl hm, Mom.get_ofFn _ hl hm, Int.abs_eq_natAbs]
  by_cases hml : m.natAbs ≤ l
  · rw [if_pos hml]
    by_cases h0 : l = 0
    · subst h0
      obtain rfl : m = 0 := by omega
      rw [if_neg (by omega)]
      simp [bigD_zero]
    · rw [if_pos (by omega)]
      apply Finset.sum_congr rfl
      intro n hn
      rw [Finset.mem_Icc] at hn
      rw [h3 l m n (by omega) hml (by omega)]
  · rw [if_neg (by omega), if_neg hml]

theorem innerMoment_map (f : V3 → V3) (l : ℕ) (m : ℤ) (c : ℤ → ℂ)
    (h : ∀ v, solidS l m (f v) = ∑ n ∈ Finset.Icc (-(l : ℤ)) l, c n * solidS l n v) (A : PtArray) :
    innerMoment (A.map fun p => ⟨p.mass, f p.pos⟩) l m =
      ∑ n ∈ Finset.Icc (-(l : ℤ)) l, c n * innerMoment A l n := by
  induction A with
  | nil => simp [innerMoment]
  | cons p A ih =>
    rw [List.map_cons, innerMoment_cons, ih, h, Finset.mul_sum, ← Finset.sum_add_distrib]
    apply Finset.sum_congr rfl
    intro n _
    rw [innerMoment_cons]; ring

theorem offAfterOrigin_map (f : V3 → V3) (hf : ∀ v, f v = 0 ↔ v = 0) (A : PtArray) :
    OffAfterOrigin (A.map fun p => ⟨p.mass, f p.pos⟩) ↔ OffAfterOrigin A := by
  constructor
  · rintro ⟨i, j, p, q, hij, hi, hj, hp, hq⟩
    rw [List.getElem?_map, Option.map_eq_some_iff] at hi hj
    obtain ⟨p', hi, rfl⟩ := hi
    obtain ⟨q', hj, rfl⟩ := hj
    exact ⟨i, j, p', q', hij, hi, hj, (hf _).1 hp, fun h => hq ((hf _).2 h)⟩
  · rintro ⟨i, j, p, q, hij, hi, hj, hp, hq⟩
    refine ⟨i, j, ⟨p.mass, f p.pos⟩, ⟨q.mass, f q.pos⟩, hij, ?_, ?_, (hf p.pos).2 hp,
      fun h => hq ((hf q.pos).1 h)⟩
    · rw [List.getElem?_map, hi]; rfl
    · rw [List.getElem?_map, hj]; rfl

theorem rotF_eq_zero {v : V3} (hv : v ≠ 0) (t : ℝ) (x : V3) : rotF t v x = 0 ↔ x = 0 := by
  rw [← modulus_eq_zero, rotF_modulus hv, modulus_eq_zero]

theorem ez_ne : (![0, 0, 1] : V3) ≠ 0 := fun h => by simpa using congrFun h 2
theorem ey_ne : (![0, 1, 0] : V3) ≠ 0 := fun h => by simpa using congrFun h 1

/-! ## C25 -/

/-- C25: rotating the moments is taking the moments of the rotated points (`gamma` about z first,
then `beta` about y, then `alpha` about z), for every angle, every degree and every array that
`qmoments` accepts. -/
theorem C25_rotate_qmoments (L : ℕ) (A : PtArray) (alpha beta gamma : ℝ) (hA : ¬ OffAfterOrigin A) :
    ∃ (q q' : Mom L) (A1 A2 A3 : PtArray), qmoments L A = some q ∧
      rotate_point_array A gamma ![0, 0, 1] = some A1 ∧
      rotate_point_array A1 beta ![0, 1, 0] = some A2 ∧
      rotate_point_array A2 alpha ![0, 0, 1] = some A3 ∧
      qmoments L A3 = some q' ∧ rotate_qlm q alpha beta gamma = some q' := by
  have hcomp : ∀ A : PtArray, (((A.map fun p => (⟨p.mass, rotF gamma ![0, 0, 1] p.pos⟩ : Pt)).map
      fun p => (⟨p.mass, rotF beta ![0, 1, 0] p.pos⟩ : Pt)).map
      fun p => (⟨p.mass, rotF alpha ![0, 0, 1] p.pos⟩ : Pt)) =
      A.map fun p => ⟨p.mass, rz alpha (ry beta (rz gamma p.pos))⟩ := by
    intro A
    rw [List.map_map, List.map_map]
    apply List.map_congr_left
    intro p _
    simp [rotF_z, rotF_y]
  have hzero : ∀ v, rz alpha (ry beta (rz gamma v)) = 0 ↔ v = 0 := by
    intro v
    rw [← rotF_z, rotF_eq_zero ez_ne, ← rotF_y, rotF_eq_zero ey_ne, ← rotF_z, rotF_eq_zero ez_ne]
  refine ⟨_, _, _, _, _, qmoments_closed L A (Or.inr ((originLast_iff A).2 hA)),
    rotate_some ez_ne _ _, rotate_some ey_ne _ _, rotate_some ez_ne _ _,
    qmoments_closed L _ (Or.inr ?_), ?_⟩
  · rw [hcomp, originLast_iff, offAfterOrigin_map (fun v => rz alpha (ry beta (rz gamma v))) hzero]
    exact hA
  · rw [rotate_qlm_closed]
    congr 1
    apply Mom.ext_get
    intro l m hl hm
    rw [hcomp, Mom.get_ofFn _ hl hm]
    by_cases hml : m.natAbs ≤ l
    · rw [if_pos hml, Mom.get_ofFn _ hl hm, innerMoment_map (fun v => rz alpha (ry beta (rz gamma v))) l m
        (bigD l alpha beta gamma m) (solidS_rot l m hml alpha beta gamma)]
      apply Finset.sum_congr rfl
      intro n hn
      rw [Finset.mem_Icc] at hn
      rw [Mom.get_ofFn _ hl (by omega)]
    · rw [if_neg hml, Mom.get_ofFn _ hl hm, Mom.get_ofFn _ hl hm, innerMoment_out _ _ _ (by omega),
        innerMoment_out _ _ _ (by omega)]

/-- the hypothesis of C25 holds for a generic pair of points -/
example : ¬ OffAfterOrigin [⟨1, ![1, 0, 0]⟩, ⟨2, ![0, 1, 3]⟩] := by
  rintro ⟨i, j, p, q, -, hi, -, hp, -⟩
  have := List.mem_of_getElem? hi
  simp only [List.mem_cons, List.not_mem_nil, or_false] at this
  rcases this with rfl | rfl
  · simpa using congrFun hp 0
  · simpa using congrFun hp 1

/-! ## C26 -/

theorem conj_exp (k : ℤ) (t : ℝ) :
    (starRingEnd ℂ) (Complex.exp (-Complex.I * k * t)) = Complex.exp (Complex.I * k * t) := by
  rw [← Complex.exp_conj]; congr 1
  simp

theorem exp_conj_mul (k : ℤ) (t : ℝ) :
    Complex.exp (-Complex.I * k * t) * Complex.exp (Complex.I * k * t) = 1 := by
  rw [← Complex.exp_add]; simp

theorem bigD_unitary_rows (l : ℕ) (alpha beta gamma : ℝ) (a b : ℤ) (ha : a.natAbs ≤ l)
    (hb : b.natAbs ≤ l) :
    ∑ k ∈ Finset.Icc (-(l : ℤ)) l, bigD l alpha beta gamma a k *
      (starRingEnd ℂ) (bigD l alpha beta gamma b k) = if a = b then 1 else 0 := by
  have h := dcs_orth (Real.cos (beta / 2)) (Real.sin (beta / 2)) (Real.cos_sq_add_sin_sq _) l a b ha hb
  have h' := congrArg (fun x : ℝ => (x : ℂ)) h
  simp only [Complex.ofReal_sum] at h'
  have e : ∀ k ∈ Finset.Icc (-(l : ℤ)) l, bigD l alpha beta gamma a k *
      (starRingEnd ℂ) (bigD l alpha beta gamma b k) =
      (Complex.exp (-Complex.I * a * alpha) * Complex.exp (Complex.I * b * alpha)) *
        ((dcs (Real.cos (beta / 2)) (Real.sin (beta / 2)) l a k *
          dcs (Real.cos (beta / 2)) (Real.sin (beta / 2)) l b k : ℝ) : ℂ) := by
    intro k _
    rw [bigD, bigD, map_mul, map_mul, conj_exp, conj_exp, Complex.conj_ofReal, smalld, smalld]
    have := exp_conj_mul k gamma
    push_cast
    linear_combination (Complex.exp (-Complex.I * a * alpha) * Complex.exp (Complex.I * b * alpha) *
      (dcs (Real.cos (beta / 2)) (Real.sin (beta / 2)) l a k : ℝ) *
      (dcs (Real.cos (beta / 2)) (Real.sin (beta / 2)) l b k : ℝ)) * this
  rw [Finset.sum_congr rfl e, ← Finset.mul_sum, h']
  split_ifs with hab
  · rw [hab, exp_conj_mul]; simp
  · simp

theorem bigD_unitary_cols (l : ℕ) (alpha beta gamma : ℝ) (a b : ℤ) (ha : a.natAbs ≤ l)
    (hb : b.natAbs ≤ l) :
    ∑ k ∈ Finset.Icc (-(l : ℤ)) l, bigD l alpha beta gamma k a *
      (starRingEnd ℂ) (bigD l alpha beta gamma k b) = if a = b then 1 else 0 := by
  have h := dcs_orth' (Real.cos (beta / 2)) (Real.sin (beta / 2)) (Real.cos_sq_add_sin_sq _) l a b ha hb
  have h' := congrArg (fun x : ℝ => (x : ℂ)) h
  simp only [Complex.ofReal_sum] at h'
  have e : ∀ k ∈ Finset.Icc (-(l : ℤ)) l, bigD l alpha beta gamma k a *
      (starRingEnd ℂ) (bigD l alpha beta gamma k b) =
      (Complex.exp (-Complex.I * a * gamma) * Complex.exp (Complex.I * b * gamma)) *
        ((dcs (Real.cos (beta / 2)) (Real.sin (beta / 2)) l k a *
          dcs (Real.cos (beta / 2)) (Real.sin (beta / 2)) l k b : ℝ) : ℂ) := by
    intro k _
    rw [bigD, bigD, map_mul, map_mul, conj_exp, conj_exp, Complex.conj_ofReal, smalld, smalld]
    have := exp_conj_mul k alpha
    push_cast
    linear_combination (Complex.exp (-Complex.I * a * gamma) * Complex.exp (Complex.I * b * gamma) *
      (dcs (Real.cos (beta / 2)) (Real.sin (beta / 2)) l k a : ℝ) *
      (dcs (Real.cos (beta / 2)) (Real.sin (beta / 2)) l k b : ℝ)) * this
  rw [Finset.sum_congr rfl e, ← Finset.mul_sum, h']
  split_ifs with hab
  · rw [hab, exp_conj_mul]; simp
  · simp

/-- C26: the matrices of the explicit formula are unitary, rows and columns. -/
theorem C26_Dl_unitary (l : ℕ) (alpha beta gamma : ℝ) (a b : ℤ) (ha : a.natAbs ≤ l)
    (hb : b.natAbs ≤ l) :
    (∑ k ∈ Finset.Icc (-(l : ℤ)) l, Dl l alpha beta gamma a k *
      (starRingEnd ℂ) (Dl l alpha beta gamma b k) = if a = b then 1 else 0) ∧
    (∑ k ∈ Finset.Icc (-(l : ℤ)) l, (starRingEnd ℂ) (Dl l alpha beta gamma k a) *
      Dl l alpha beta gamma k b = if a = b then 1 else 0) := by
  constructor
  · rw [← bigD_unitary_rows l alpha beta gamma a b ha hb]
    apply Finset.sum_congr rfl
    intro k hk
    rw [Finset.mem_Icc] at hk
    simp only [Dl]
    rw [Dlmn_eq l k a (by omega) ha, Dlmn_eq l k b (by omega) hb]
  · have := bigD_unitary_cols l alpha beta gamma b a hb ha
    rw [show (if a = b then (1 : ℂ) else 0) = if b = a then 1 else 0 by
      simp only [eq_comm], ← this]
    apply Finset.sum_congr rfl
    intro k hk
    rw [Finset.mem_Icc] at hk
    simp only [Dl]
    rw [Dlmn_eq l a k ha (by omega), Dlmn_eq l b k hb (by omega), mul_comm]

/-- C26: so are the matrices of the recursion, for every degree and every angle. -/
theorem C26_wignerDl_unitary (L : ℕ) (hL : 1 ≤ L) (alpha beta gamma : ℝ) :
    ∃ ds, wignerDl L alpha beta gamma = some ds ∧ ds.length = L + 1 ∧
      ∀ (l : ℕ) (a b : ℤ), l ≤ L → a.natAbs ≤ l → b.natAbs ≤ l →
        (∑ k ∈ Finset.Icc (-(l : ℤ)) l, ds.getD l 0 a k * (starRingEnd ℂ) (ds.getD l 0 b k) =
          if a = b then 1 else 0) ∧
        (∑ k ∈ Finset.Icc (-(l : ℤ)) l, (starRingEnd ℂ) (ds.getD l 0 k a) * ds.getD l 0 k b =
          if a = b then 1 else 0) := by
  obtain ⟨ds, h1, h2, h3⟩ := wignerDl_some L hL alpha beta gamma
  refine ⟨ds, h1, h2, ?_⟩
  intro l a b hl ha hb
  constructor
  · rw [← bigD_unitary_rows l alpha beta gamma a b ha hb]
    apply Finset.sum_congr rfl
    intro k hk
    rw [Finset.mem_Icc] at hk
    rw [h3 l a k hl ha (by omega), h3 l b k hl hb (by omega)]
  · have := bigD_unitary_cols l alpha beta gamma b a hb ha
    rw [show (if a = b then (1 : ℂ) else 0) = if b = a then 1 else 0 by
      simp only [eq_comm], ← this]
    apply Finset.sum_congr rfl
    intro k hk
    rw [Finset.mem_Icc] at hk
    rw [h3 l k a hl (by omega) ha, h3 l k b hl (by omega) hb, mul_comm]

theorem sum_norm_sq_unitary (l : ℕ) (D : ℤ → ℤ → ℂ) (q : ℤ → ℂ)
    (hD : ∀ a b : ℤ, a.natAbs ≤ l → b.natAbs ≤ l →
      ∑ k ∈ Finset.Icc (-(l : ℤ)) l, D k a * (starRingEnd ℂ) (D k b) = if a = b then 1 else 0) :
    ∑ m ∈ Finset.Icc (-(l : ℤ)) l,
      (∑ n ∈ Finset.Icc (-(l : ℤ)) l, D m n * q n) *
        (starRingEnd ℂ) (∑ n ∈ Finset.Icc (-(l : ℤ)) l, D m n * q n) =
    ∑ m ∈ Finset.Icc (-(l : ℤ)) l, q m * (starRingEnd ℂ) (q m) := by
  have e : ∀ m ∈ Finset.Icc (-(l : ℤ)) l, (∑ n ∈ Finset.Icc (-(l : ℤ)) l, D m n * q n) *
        (starRingEnd ℂ) (∑ n ∈ Finset.Icc (-(l : ℤ)) l, D m n * q n) =
      ∑ a ∈ Finset.Icc (-(l : ℤ)) l, ∑ b ∈ Finset.Icc (-(l : ℤ)) l,
        (q a * (starRingEnd ℂ) (q b)) * (D m a * (starRingEnd ℂ) (D m b)) := by
    intro m _
    rw [map_sum, Finset.sum_mul_sum]
    apply Finset.sum_congr rfl; intro a _
    apply Finset.sum_congr rfl; intro b _
    rw [map_mul]; ring
  rw [Finset.sum_congr rfl e, Finset.sum_comm]
  apply Finset.sum_congr rfl
  intro a ha
  rw [Finset.sum_comm]
  rw [Finset.mem_Icc] at ha
  rw [Finset.sum_eq_single a]
  · rw [← Finset.mul_sum, hD a a (by omega) (by omega), if_pos rfl, mul_one]
  · intro b hb hne
    rw [Finset.mem_Icc] at hb
    rw [← Finset.mul_sum, hD a b (by omega) (by omega), if_neg (Ne.symm hne), mul_zero]
  · intro h; exact absurd (Finset.mem_Icc.2 (by omega)) h

/-- C26: `rotate_qlm` preserves the norm of every degree. -/
theorem C26_norm_preserved {L : ℕ} (q : Mom L) (alpha beta gamma : ℝ) :
    ∃ q', rotate_qlm q alpha beta gamma = some q' ∧ ∀ l, l ≤ L →
      ∑ m ∈ Finset.Icc (-(l : ℤ)) l, Complex.normSq (q'.get l m) =
        ∑ m ∈ Finset.Icc (-(l : ℤ)) l, Complex.normSq (q.get l m) := by
  refine ⟨_, rotate_qlm_closed q alpha beta gamma, ?_⟩
  intro l hl
  have h := sum_norm_sq_unitary l (bigD l alpha beta gamma) (q.get l)
    (bigD_unitary_cols l alpha beta gamma)
  have : ∀ (f : ℤ → ℂ), ((∑ m ∈ Finset.Icc (-(l : ℤ)) l, Complex.normSq (f m) : ℝ) : ℂ) =
      ∑ m ∈ Finset.Icc (-(l : ℤ)) l, f m * (starRingEnd ℂ) (f m) := by
    intro f
    rw [Complex.ofReal_sum]
    apply Finset.sum_congr rfl
    intro m _
    rw [Complex.mul_conj]
  apply Complex.ofReal_injective
  rw [this, this, ← h]
  apply Finset.sum_congr rfl
  intro m hm
  rw [Finset.mem_Icc] at hm
  rw [Mom.get_ofFn _ hl (by omega), if_pos (by omega)]

/-! ## C27 -/

theorem bigD_beta_zero (l : ℕ) (alpha gamma : ℝ) (a b : ℤ) (ha : a.natAbs ≤ l) (hb : b.natAbs ≤ l) :
    bigD l alpha 0 gamma a b = if a = b then Complex.exp (-Complex.I * a * (alpha + gamma)) else 0 := by
  have : smalld l 0 a b = if a = b then 1 else 0 := by
    rw [smalld]; simp only [zero_div, Real.cos_zero, Real.sin_zero]
    exact dcs_one l a b ha hb
  rw [bigD, this]
  split_ifs with h
  · subst h
    rw [mul_add, Complex.exp_add]; simp
  · simp

/-- C27: rotations about z only multiply by phases. -/
theorem C27_about_z {L : ℕ} (q : Mom L) (alpha gamma : ℝ) :
    ∃ q', rotate_qlm q alpha 0 gamma = some q' ∧
      (∀ (l : ℕ) (m : ℤ), l ≤ L → m.natAbs ≤ l →
        q'.get l m = Complex.exp (-Complex.I * m * (alpha + gamma)) * q.get l m) ∧
      (∀ (l : ℕ) (m : ℤ), l ≤ L → m.natAbs ≤ L → l < m.natAbs → q'.get l m = q.get l m) := by
  refine ⟨_, rotate_qlm_closed q alpha 0 gamma, ?_, ?_⟩
  · intro l m hl hm
    rw [Mom.get_ofFn _ hl (by omega), if_pos hm, Finset.sum_eq_single m]
    · rw [bigD_beta_zero l alpha gamma m m hm hm, if_pos rfl]
    · intro n hn hne
      rw [Finset.mem_Icc] at hn
      rw [bigD_beta_zero l alpha gamma m n hm (by omega), if_neg (Ne.symm hne), zero_mul]
    · intro h; exact absurd (Finset.mem_Icc.2 (by omega)) h
  · intro l m hl hm h
    rw [Mom.get_ofFn _ hl hm, if_neg (by omega)]

/-- C27: the zero rotation returns the input, for any array. -/
theorem C27_zero {L : ℕ} (q : Mom L) : rotate_qlm q 0 0 0 = some q := by
  obtain ⟨q', h1, h2, h3⟩ := C27_about_z q 0 0
  rw [h1]
  congr 1
  apply Mom.ext_get
  intro l m hl hm
  by_cases hml : m.natAbs ≤ l
  · rw [h2 l m hl hml]; simp
  · exact h3 l m hl hm (by omega)

/-- C27: a full turn of `beta` is the zero rotation. -/
theorem C27_beta_full_turn {L : ℕ} (q : Mom L) (alpha beta gamma : ℝ) (k : ℤ) :
    rotate_qlm q alpha (beta + 2 * Real.pi * k) gamma = rotate_qlm q alpha beta gamma := by
  rw [rotate_qlm_closed, rotate_qlm_closed, Option.some.injEq]
  apply Mom.ext_get
  intro l m hl hm
  rw [Mom.get_ofFn _ hl hm, Mom.get_ofFn _ hl hm]
  split_ifs with h
  · apply Finset.sum_congr rfl
    intro n hn
    rw [Finset.mem_Icc] at hn
    have hp := (smalld_periodic l m n (by omega)).sub_int_mul_eq k (x := beta + 2 * Real.pi * k)
    rw [show beta + 2 * Real.pi * k - k * (2 * Real.pi) = beta by ring] at hp
    rw [bigD, bigD, hp]
  · rfl

/-! ## C28 (rotations part) -/

/-- C28: `wignerDl` and `dlmn` fail exactly for degree zero. -/
theorem C28_wigner_fails_iff (L : ℕ) (alpha beta gamma : ℝ) :
    (wignerDl L alpha beta gamma = none ↔ L = 0) ∧ (dlmn L beta = none ↔ L = 0) := by
  constructor
  · constructor
    · intro h
      by_contra h0
      obtain ⟨ds, h1, -⟩ := wignerDl_some L (by omega) alpha beta gamma
      rw [h1] at h; exact absurd h (by simp)
    · rintro rfl; simp [wignerDl, rotate_H_recurs]
  · constructor
    · intro h
      by_contra h0
      obtain ⟨ds, h1, -⟩ := dlmn_some L (by omega) beta
      rw [h1] at h; exact absurd h (by simp)
    · rintro rfl; simp [dlmn, rotate_H_recurs]

/-- C28: `rotate_qlm` never fails, also on monopole-only arrays, which it returns unchanged. -/
theorem C28_rotate_qlm_total {L : ℕ} (q : Mom L) (alpha beta gamma : ℝ) :
    (rotate_qlm q alpha beta gamma).isSome ∧ (L = 0 → rotate_qlm q alpha beta gamma = some q) := by
  constructor
  · rw [rotate_qlm_closed]; rfl
  · rintro rfl
    rw [rotate_qlm_closed]
    congr 1
    apply Mom.ext_get
    intro l m hl hm
    obtain rfl : l = 0 := by omega
    obtain rfl : m = 0 := by omega
    rw [Mom.get_ofFn _ hl hm]
    simp [bigD_zero]

/-! ## C46 -/

/-- C46: the recursive and the explicit Wigner matrices agree in every entry. -/
theorem C46_recursion_eq_explicit (L : ℕ) (hL : 1 ≤ L) (alpha beta gamma : ℝ) :
    ∃ ds, wignerDl L alpha beta gamma = some ds ∧ ds.length = L + 1 ∧
      ∀ (l : ℕ) (a b : ℤ), l ≤ L → a.natAbs ≤ l → b.natAbs ≤ l →
        ds.getD l 0 a b = Dl l alpha beta gamma a b := by
  obtain ⟨ds, h1, h2, h3⟩ := wignerDl_some L hL alpha beta gamma
  refine ⟨ds, h1, h2, ?_⟩
  intro l a b hl ha hb
  rw [h3 l a b hl ha hb, Dl, Dlmn_eq l b a hb ha]

/-- C46: the small-d matrices of `dlmn` are those of `wignerDl` with vanishing outer angles. -/
theorem C46_dlmn (L : ℕ) (hL : 1 ≤ L) (beta : ℝ) :
    ∃ ds, dlmn L beta = some ds ∧ ds.length = L + 1 ∧
      ∀ (l : ℕ) (a b : ℤ), l ≤ L → a.natAbs ≤ l → b.natAbs ≤ l →
        ((ds.getD l 0 a b : ℝ) : ℂ) = Dl l 0 beta 0 a b := by
  obtain ⟨ds, h1, h2, h3⟩ := dlmn_some L hL beta
  refine ⟨ds, h1, h2, ?_⟩
  intro l a b hl ha hb
  rw [h3 l a b hl ha hb, Dl, Dlmn_eq l b a hb ha, bigD]
  simp

/-- the degree-one matrix has the textbook entry `cos beta` in the middle -/
example (beta : ℝ) : Dl 1 0 beta 0 0 0 = (Real.cos beta : ℝ) := by
  have e : Real.cos beta = Real.cos (beta / 2) ^ 2 - Real.sin (beta / 2) ^ 2 := by
    rw [← Real.cos_two_mul']; congr 1; ring
  rw [Dl, Dlmn, e]
  simp only [sub_self, sub_zero, add_zero, max_self, min_self, Nat.cast_one]
  rw [show Finset.Icc (0 : ℤ) 1 = {0, 1} by rfl]
  rw [Finset.sum_pair (by norm_num)]
  norm_num [spFactorial]
  push_cast
  ring

/-! ## C47 -/

theorem bigD_inv (l : ℕ) (alpha beta gamma : ℝ) (a b : ℤ) (ha : a.natAbs ≤ l) (hb : b.natAbs ≤ l) :
    bigD l (-gamma) (-beta) (-alpha) a b = (starRingEnd ℂ) (bigD l alpha beta gamma b a) := by
  have h : smalld l (-beta) a b = smalld l beta b a := by
    rw [smalld_neg l a b ha hb, smalld, smalld, dcs_trans _ _ l b a hb ha]; ring
  rw [bigD, bigD, map_mul, map_mul, conj_exp, conj_exp, Complex.conj_ofReal, h]
  push_cast
  rw [show -Complex.I * a * -gamma = Complex.I * a * gamma by ring,
    show -Complex.I * b * -alpha = Complex.I * b * alpha by ring]
  ring

theorem bigD_neg_idx (l : ℕ) (alpha beta gamma : ℝ) (a b : ℤ) (ha : a.natAbs ≤ l)
    (hb : b.natAbs ≤ l) :
    bigD l alpha beta gamma (-a) (-b) =
      (-1) ^ a.natAbs * (-1) ^ b.natAbs * (starRingEnd ℂ) (bigD l alpha beta gamma a b) := by
  have h : smalld l beta (-a) (-b) = (-1) ^ a.natAbs * (-1) ^ b.natAbs * smalld l beta a b := by
    rw [smalld, smalld, dcs_neg_idx _ _ l a b ha hb, negone_natAbs, negone_natAbs]
  rw [bigD, bigD, map_mul, map_mul, conj_exp, conj_exp, Complex.conj_ofReal, h]
  push_cast
  rw [show -Complex.I * -a * alpha = Complex.I * a * alpha by ring,
    show -Complex.I * -b * gamma = Complex.I * b * gamma by ring]
  ring

/-- C47: the reversed rotation undoes a rotation, for any array. -/
theorem C47_inverse {L : ℕ} (q : Mom L) (alpha beta gamma : ℝ) :
    ∃ q', rotate_qlm q alpha beta gamma = some q' ∧
      rotate_qlm q' (-gamma) (-beta) (-alpha) = some q := by
  refine ⟨_, rotate_qlm_closed q alpha beta gamma, ?_⟩
  rw [rotate_qlm_closed]
  congr 1
  apply Mom.ext_get
  intro l m hl hm
  rw [Mom.get_ofFn _ hl hm]
  split_ifs with h
  · have e : ∀ n ∈ Finset.Icc (-(l : ℤ)) l, bigD l (-gamma) (-beta) (-alpha) m n *
        (Mom.ofFn L fun l m => if m.natAbs ≤ l then
          ∑ n ∈ Finset.Icc (-(l : ℤ)) l, bigD l alpha beta gamma m n * q.get l n
          else q.get l m).get l n =
        ∑ k ∈ Finset.Icc (-(l : ℤ)) l, q.get l k *
          (bigD l alpha beta gamma n k * (starRingEnd ℂ) (bigD l alpha beta gamma n m)) := by
      intro n hn
      rw [Finset.mem_Icc] at hn
      rw [Mom.get_ofFn _ hl (by omega), if_pos (by omega), bigD_inv l alpha beta gamma m n h (by omega),
        Finset.mul_sum]
      apply Finset.sum_congr rfl
      intro k _
      ring
    rw [Finset.sum_congr rfl e, Finset.sum_comm, Finset.sum_eq_single m]
    · rw [← Finset.mul_sum, bigD_unitary_cols l alpha beta gamma m m h h, if_pos rfl, mul_one]
    · intro k hk hne
      rw [Finset.mem_Icc] at hk
      rw [← Finset.mul_sum, bigD_unitary_cols l alpha beta gamma k m (by omega) h, if_neg hne, mul_zero]
    · intro h'; exact absurd (Finset.mem_Icc.2 (by omega)) h'
  · rw [Mom.get_ofFn _ hl hm, if_neg h]

/-- C47: rotation keeps the reality symmetry and the empty corners of a moment array. -/
theorem C47_valid {L : ℕ} (q : Mom L) (hq : Valid q) (alpha beta gamma : ℝ) :
    ∃ q', rotate_qlm q alpha beta gamma = some q' ∧ Valid q' := by
  refine ⟨_, rotate_qlm_closed q alpha beta gamma, ?_, ?_⟩
  · intro l m hl hm
    rw [Mom.get_ofFn _ hl (by omega), Mom.get_ofFn _ hl hm, Int.natAbs_neg]
    split_ifs with h
    · rw [← sum_Icc_neg, map_sum, Finset.mul_sum]
      apply Finset.sum_congr rfl
      intro n hn
      rw [Finset.mem_Icc] at hn
      rw [bigD_neg_idx l alpha beta gamma m n h (by omega), hq.1 l n hl (by omega), map_mul]
      have e : ((-1 : ℂ)) ^ n.natAbs * (-1) ^ n.natAbs = 1 := by rw [← mul_pow]; simp
      linear_combination ((-1) ^ m.natAbs * (starRingEnd ℂ) (bigD l alpha beta gamma m n) *
        (starRingEnd ℂ) (q.get l n)) * e
    · exact hq.1 l m hl hm
  · intro l m hl hm h
    rw [Mom.get_ofFn _ hl hm, if_neg (by omega)]
    exact hq.2 l m hl hm h

theorem rotate_qlm_Ds_closed {L : ℕ} (q : Mom L) (ds : List (ℤ → ℤ → ℂ)) (D : ℕ → ℤ → ℤ → ℂ)
    (hlen : ds.length = L + 1) (c : Bool)
    (h0 : D 0 0 0 = 1)
    (hD : ∀ (l : ℕ) (a b : ℤ), l ≤ L → a.natAbs ≤ l → b.natAbs ≤ l → ds.getD l 0 a b = D l a b) :
    rotate_qlm_Ds q ds c = Mom.ofFn L fun l m =>
      if m.natAbs ≤ l then ∑ n ∈ Finset.Icc (-(l : ℤ)) l,
        (if c then (starRingEnd ℂ) (D l n m) else D l m n) * q.get l n
      else q.get l m := by
  rw [rotate_qlm_Ds, if_pos hlen]
  apply Mom.ext_get
  intro l m hl hm
  rw [applyD, Mom.get_ofFn _ hl hm, Mom.get_ofFn _ hl hm, Int.abs_eq_natAbs]
  by_cases hml : m.natAbs ≤ l
  · rw [if_pos hml]
    by_cases h00 : l = 0
    · subst h00
      obtain rfl : m = 0 := by omega
      rw [if_neg (by omega)]
      cases c <;> simp [h0]
    · rw [if_pos (by omega)]
      apply Finset.sum_congr rfl
      intro n hn
      rw [Finset.mem_Icc] at hn
      rw [hD l m n (by omega) hml (by omega), hD l n m (by omega) (by omega) hml]
  · rw [if_neg (by omega), if_neg hml]

/-- C47: `rotate_qlm_Ds` with the matrices of `wignerDl` is `rotate_qlm`, and with `conj_trans` it is
the reversed rotation. -/
theorem C47_Ds {L : ℕ} (hL : 1 ≤ L) (q : Mom L) (alpha beta gamma : ℝ) :
    ∃ ds, wignerDl L alpha beta gamma = some ds ∧
      rotate_qlm q alpha beta gamma = some (rotate_qlm_Ds q ds false) ∧
      rotate_qlm q (-gamma) (-beta) (-alpha) = some (rotate_qlm_Ds q ds true) := by
  obtain ⟨ds, h1, h2, h3⟩ := wignerDl_some L hL alpha beta gamma
  refine ⟨ds, h1, ?_, ?_⟩
  · rw [rotate_qlm_closed, rotate_qlm_Ds_closed q ds (fun l => bigD l alpha beta gamma) h2 false
      (bigD_zero _ _ _) h3]
    simp
  · rw [rotate_qlm_closed, rotate_qlm_Ds_closed q ds (fun l => bigD l alpha beta gamma) h2 true
      (bigD_zero _ _ _) h3]
    congr 1
    apply Mom.ext_get
    intro l m hl hm
    rw [Mom.get_ofFn _ hl hm, Mom.get_ofFn _ hl hm]
    simp only [if_true]
    split_ifs with h
    · apply Finset.sum_congr rfl
      intro n hn
      rw [Finset.mem_Icc] at hn
      rw [bigD_inv l alpha beta gamma m n h (by omega)]
    · rfl

/-- C47: a list of matrices of the wrong length leaves the moments unchanged. -/
theorem C47_Ds_mismatch {L : ℕ} (q : Mom L) (ds : List (ℤ → ℤ → ℂ)) (c : Bool)
    (h : ds.length ≠ L + 1) : rotate_qlm_Ds q ds c = q ∧ rotate_qlm_Ds_right q ds c = q := by
  rw [rotate_qlm_Ds, rotate_qlm_Ds_right, if_neg h, if_neg h]
  exact ⟨rfl, rfl⟩

end Newt
