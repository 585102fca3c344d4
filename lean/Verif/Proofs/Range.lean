import Verif.Model.Range
import Verif.Proofs.ClebschGordan

/-! # Lemmas about the range of doubles -/

namespace Newt.Rng

open Spec

/-- The value is a finite number. -/
def IsFin (f : FV) : Prop := ∃ x, f = .fin x

theorem two_pow_lt {a b : ℕ} (h : a < b) : (2 : ℝ) ^ a < 2 ^ b := pow_lt_pow_right₀ one_lt_two h

theorem OVER_pos : 0 < OVER := sub_pos.2 (two_pow_lt (by norm_num))

theorem OVER_lt : OVER < 2 ^ 1024 := sub_lt_self _ (by positivity)

theorem le_OVER : (2 : ℝ) ^ 1023 ≤ OVER := by
  have h : (2 : ℝ) ^ 970 ≤ 2 ^ 1023 := (two_pow_lt (by norm_num)).le
  have e : (2 : ℝ) ^ 1024 = 2 * 2 ^ 1023 := pow_succ' 2 1023
  rw [OVER, e]
  generalize (2 : ℝ) ^ 970 = x at h ⊢
  generalize (2 : ℝ) ^ 1023 = y at h ⊢
  linarith

theorem UNDER_pos : 0 < UNDER := one_div_pos.2 (by positivity)

/-- Deciding an inequality between large natural numbers and `OVER`. -/
theorem nat_lt_OVER {n : ℕ} (h : n + 2 ^ 970 < 2 ^ 1024) : (n : ℝ) < OVER := by
  have : ((n + 2 ^ 970 : ℕ) : ℝ) < ((2 ^ 1024 : ℕ) : ℝ) := Nat.cast_lt.2 h
  rw [Nat.cast_add, Nat.cast_pow, Nat.cast_pow, Nat.cast_ofNat] at this
  exact lt_sub_iff_add_lt.2 this

theorem OVER_le_nat {n : ℕ} (h : 2 ^ 1024 ≤ n) : OVER ≤ (n : ℝ) := by
  have : ((2 ^ 1024 : ℕ) : ℝ) ≤ (n : ℝ) := Nat.cast_le.2 h
  rw [Nat.cast_pow, Nat.cast_ofNat] at this
  exact OVER_lt.le.trans this

theorem rnd_fin {x : ℝ} (h1 : |x| < OVER) (h2 : UNDER < |x|) : rnd x = .fin x := by
  rw [rnd, if_neg (not_le.2 h1), if_neg (not_le.2 h2)]

theorem rnd_zero : rnd 0 = .fin 0 := by
  rw [rnd, if_neg (by rw [abs_zero]; exact not_le.2 OVER_pos), if_pos (by rw [abs_zero]; exact UNDER_pos.le)]

theorem rnd_isFin {x : ℝ} (h : |x| < OVER) : IsFin (rnd x) := by
  rw [rnd, if_neg (not_le.2 h)]
  split_ifs
  · exact ⟨_, rfl⟩
  · exact ⟨_, rfl⟩

theorem rnd_abs {x : ℝ} (h : |x| < OVER) : ∃ y, rnd x = .fin y ∧ |y| ≤ |x| := by
  rw [rnd, if_neg (not_le.2 h)]
  split_ifs
  · exact ⟨_, rfl, by rw [abs_zero]; exact abs_nonneg x⟩
  · exact ⟨_, rfl, le_rfl⟩

theorem rnd_over {x : ℝ} (h : OVER ≤ x) : rnd x = .inf false := by
  have hx : 0 < x := OVER_pos.trans_le h
  rw [rnd, if_pos (by rwa [abs_of_pos hx]), decide_eq_false (not_lt.2 hx.le)]

theorem mul_isFin {a b : FV} (h : IsFin (mul a b)) : IsFin a ∧ IsFin b := by
  obtain ⟨x, hx⟩ := h
  cases a <;> cases b <;> simp only [mul] at hx <;>
    first
    | exact ⟨⟨_, rfl⟩, ⟨_, rfl⟩⟩
    | (split_ifs at hx)
    | cases hx

theorem sqrt_isFin {a : FV} (h : IsFin (sqrt a)) : IsFin a := by
  obtain ⟨x, hx⟩ := h
  cases a <;> simp only [sqrt] at hx
  · exact ⟨_, rfl⟩
  · split_ifs at hx
  · cases hx

theorem sqrt_fin {x : ℝ} (h : 0 ≤ x) : sqrt (.fin x) = .fin (Real.sqrt x) := by
  rw [sqrt, if_neg (not_lt.2 h)]

theorem div_fin {x y : ℝ} (hy : y ≠ 0) : div (.fin x) (.fin y) = rnd (x / y) := by
  rw [div, if_neg hy]

theorem foldl_add_fin (l : List ℝ) : ∀ a : ℝ, |a| + (l.map abs).sum < OVER →
    (l.map FV.fin).foldl add (.fin a) = .fin (a + l.sum) := by
  induction l with
  | nil => intro a _; simp
  | cons x l ih =>
    intro a h
    rw [List.map_cons, List.sum_cons] at h
    have h0 : 0 ≤ (l.map abs).sum := List.sum_nonneg (by simp only [List.mem_map]; rintro _ ⟨y, -, rfl⟩; exact abs_nonneg y)
    have hx := abs_add_le a x
    have h1 : ¬ OVER ≤ |a + x| := by rw [not_le]; linarith
    rw [List.map_cons, List.foldl_cons, add, if_neg h1, ih _ (by linarith), List.sum_cons, add_assoc]

theorem sum_fin (l : List ℝ) (h : (l.map abs).sum < OVER) : sum (l.map FV.fin) = .fin l.sum := by
  rw [sum, foldl_add_fin l 0 (by rwa [abs_zero, zero_add]), zero_add]

theorem irange_nodup (a b : ℤ) : (irange a b).Nodup := by
  refine List.Nodup.map ?_ List.nodup_range
  intro i j h
  simpa using h

theorem mem_irange {a b k : ℤ} : k ∈ irange a b ↔ a ≤ k ∧ k ≤ b := by
  simp only [irange, List.mem_map, List.mem_range]
  constructor
  · rintro ⟨i, hi, rfl⟩; omega
  · rintro ⟨h1, h2⟩; exact ⟨(k - a).toNat, by omega, by omega⟩

theorem irange_sum {α : Type} [AddCommMonoid α] (a b : ℤ) (f : ℤ → α) : ((irange a b).map f).sum = ∑ k ∈ Finset.Icc a b, f k := by
  have e : Finset.Icc a b = (irange a b).toFinset := by
    ext k; rw [Finset.mem_Icc, List.mem_toFinset, mem_irange]
  rw [e, List.sum_toFinset f (irange_nodup a b)]

theorem irange_length (a b : ℤ) : (irange a b).length = (b + 1 - a).toNat := by
  rw [irange, List.length_map, List.length_range]

theorem isFin_iff_val {f : FV} : IsFin f ↔ val? f ≠ none := by
  cases f
  · simp [IsFin, val?]
  · simp [IsFin, val?]
  · simp [IsFin, val?]

/-! ## factorials -/

theorem fct_mono {a b : ℤ} (h : a ≤ b) : fct a ≤ fct b := by
  rw [fct, fct]
  exact_mod_cast Nat.factorial_le (by omega)

theorem one_le_fct (a : ℤ) : 1 ≤ fct a := by
  rw [fct]; exact_mod_cast Nat.one_le_iff_ne_zero.2 (Nat.factorial_pos _).ne'

theorem fct_mul_le {a b : ℤ} (ha : 0 ≤ a) (hb : 0 ≤ b) : fct a * fct b ≤ fct (a + b) := by
  obtain ⟨a, rfl⟩ := Int.eq_ofNat_of_zero_le ha
  obtain ⟨b, rfl⟩ := Int.eq_ofNat_of_zero_le hb
  rw [fct, fct, fct, ← Nat.cast_add, Int.toNat_natCast, Int.toNat_natCast, Int.toNat_natCast]
  exact_mod_cast Nat.le_of_dvd (Nat.factorial_pos _) (Nat.factorial_mul_factorial_dvd_factorial_add a b)

theorem fct_le_pow {a b : ℤ} (ha : 0 ≤ a) (hb : 0 ≤ b) : fct (a + b) ≤ 2 ^ (a + b).toNat * (fct a * fct b) := by
  obtain ⟨a, rfl⟩ := Int.eq_ofNat_of_zero_le ha
  obtain ⟨b, rfl⟩ := Int.eq_ofNat_of_zero_le hb
  rw [fct, fct, fct, ← Nat.cast_add, Int.toNat_natCast, Int.toNat_natCast, Int.toNat_natCast]
  have h := Nat.add_choose_mul_factorial_mul_factorial a b
  have h2 : (a + b).choose b ≤ 2 ^ (a + b) := Nat.choose_le_two_pow _ _
  rw [← h, mul_assoc]
  exact_mod_cast Nat.mul_le_mul_right _ h2

theorem fct170 : fct 170 < OVER := nat_lt_OVER (by decide +kernel)

theorem fct171 : OVER ≤ fct 171 := OVER_le_nat (by decide +kernel)

theorem fct_lt {n : ℤ} : fct n < OVER ↔ n ≤ 170 := by
  constructor
  · intro h
    by_contra hn
    push Not at hn
    exact absurd (fct171.trans (fct_mono (by omega : (171 : ℤ) ≤ n))) (not_le.2 h)
  · intro h
    exact (fct_mono h).trans_lt fct170

theorem under_lt {x : ℝ} (h : 1 / 2 ^ 1074 ≤ x) : UNDER < x := by
  refine lt_of_lt_of_le ?_ h
  rw [UNDER]
  exact one_div_lt_one_div_of_lt (by positivity) (two_pow_lt (by norm_num))

theorem inv_fct_under {D : ℝ} (h0 : 0 < D) (h : D < OVER) : UNDER < 1 / D := by
  refine under_lt ?_
  refine one_div_le_one_div_of_le h0 (h.le.trans ?_)
  exact OVER_lt.le.trans (two_pow_lt (by norm_num)).le

/-! ## cgCoeff -/

/-- The product of factorials under the root `fac2`. -/
noncomputable def prodP (j1 j2 m1 m2 J M : ℤ) : ℝ :=
  fct (J + M) * fct (J - M) * (fct (j1 - m1) * fct (j1 + m1)) * (fct (j2 - m2) * fct (j2 + m2))

theorem exp_fac2 {j1 j2 m1 m2 J M : ℤ} (h : CGOk j1 j2 m1 m2 J M) :
    Real.exp (gammaln (J + M + 1) + gammaln (J - M + 1)
      + (gammaln (j1 - m1 + 1) + gammaln (j1 + m1 + 1)) + (gammaln (j2 - m2 + 1) + gammaln (j2 + m2 + 1))) =
      prodP j1 j2 m1 m2 J M := by
  obtain ⟨h1, h2, h3, h4, h5, h6, h7, h8, h9, h10⟩ := h
  rw [Real.exp_add, Real.exp_add, Real.exp_add, Real.exp_add, Real.exp_add,
    exp_gammaln _ (J + M) h8 (by push_cast; ring), exp_gammaln _ (J - M) h9 (by push_cast; ring),
    exp_gammaln _ (j1 - m1) h4 (by push_cast; ring), exp_gammaln _ (j1 + m1) h5 (by push_cast; ring),
    exp_gammaln _ (j2 - m2) h6 (by push_cast; ring), exp_gammaln _ (j2 + m2) h7 (by push_cast; ring)]
  rfl

theorem exp_fac1 {j1 j2 m1 m2 J M : ℤ} (h : CGOk j1 j2 m1 m2 J M) :
    Real.exp (gammaln (J + j1 - j2 + 1) + gammaln (J - j1 + j2 + 1)
      + (gammaln (j1 + j2 - J + 1) - gammaln (j1 + j2 + J + 2))) =
      fct (J + j1 - j2) * fct (J - j1 + j2) * (fct (j1 + j2 - J) / fct (j1 + j2 + J + 1)) := by
  obtain ⟨h1, h2, h3, h4, h5, h6, h7, h8, h9, h10⟩ := h
  rw [Real.exp_add, Real.exp_add, Real.exp_sub,
    exp_gammaln _ (J + j1 - j2) h1 (by push_cast; ring), exp_gammaln _ (J - j1 + j2) h2 (by push_cast; ring),
    exp_gammaln _ (j1 + j2 - J) h3 (by push_cast; ring), exp_gammaln _ (j1 + j2 + J + 1) (by omega) (by push_cast; ring)]

theorem exp_den {j1 j2 m1 m2 J M k : ℤ} (h0 : 0 ≤ k) (h1 : 0 ≤ j1 + j2 - J - k) (h2 : 0 ≤ j1 - m1 - k) (h3 : 0 ≤ j2 + m2 - k)
    (h4 : 0 ≤ J - j2 + m1 + k) (h5 : 0 ≤ J - j1 - m2 + k) (hM : M = m1 + m2) :
    ∃ D : ℝ, Real.exp (gammaln (k + 1) + gammaln (j1 + j2 - J - k + 1) + (gammaln (j1 - m1 - k + 1) + gammaln (j2 + m2 - k + 1))
        + (gammaln (J - j2 + m1 + k + 1) + gammaln (J - j1 - m2 + k + 1))) = D ∧ 1 ≤ D ∧
      D ≤ fct (J + M) * fct (j1 - m1) * fct (j2 - m2) := by
  refine ⟨fct k * fct (j1 + j2 - J - k) * (fct (j1 - m1 - k) * fct (j2 + m2 - k)) * (fct (J - j2 + m1 + k) * fct (J - j1 - m2 + k)), ?_, ?_, ?_⟩
  · rw [Real.exp_add, Real.exp_add, Real.exp_add, Real.exp_add, Real.exp_add,
      exp_gammaln _ k h0 rfl, exp_gammaln _ (j1 + j2 - J - k) h1 (by push_cast; ring),
      exp_gammaln _ (j1 - m1 - k) h2 (by push_cast; ring), exp_gammaln _ (j2 + m2 - k) h3 (by push_cast; ring),
      exp_gammaln _ (J - j2 + m1 + k) h4 (by push_cast; ring), exp_gammaln _ (J - j1 - m2 + k) h5 (by push_cast; ring)]
  · have := one_le_fct
    have w : ∀ x y : ℝ, 1 ≤ x → 1 ≤ y → 1 ≤ x * y := fun x y hx hy => one_le_mul_of_one_le_of_one_le hx hy
    exact w _ _ (w _ _ (w _ _ (this _) (this _)) (w _ _ (this _) (this _))) (w _ _ (this _) (this _))
  · have e1 := fct_mul_le h0 h2
    have e2 := fct_mul_le h1 h5
    have e3 := fct_mul_le h3 h4
    rw [show k + (j1 - m1 - k) = j1 - m1 by ring] at e1
    rw [show j1 + j2 - J - k + (J - j1 - m2 + k) = j2 - m2 by ring] at e2
    rw [show j2 + m2 - k + (J - j2 + m1 + k) = J + M by rw [hM]; ring] at e3
    have p := fun x => (fct_pos x).le
    calc _ = (fct (j2 + m2 - k) * fct (J - j2 + m1 + k)) * (fct k * fct (j1 - m1 - k)) *
          (fct (j1 + j2 - J - k) * fct (J - j1 - m2 + k)) := by ring
      _ ≤ _ := mul_le_mul (mul_le_mul e3 e1 (mul_nonneg (p _) (p _)) (p _)) e2 (mul_nonneg (p _) (p _)) (mul_nonneg (p _) (p _))

theorem six {a b c d e f X : ℝ} (ha : 1 ≤ a) (hb : 1 ≤ b) (hc : 1 ≤ c) (hd : 1 ≤ d) (he : 1 ≤ e) (hf : 1 ≤ f)
    (h : a * b * (c * d) * (e * f) < X) : (a < X ∧ b < X ∧ c < X ∧ d < X ∧ e < X ∧ f < X) ∧ a * c * e < X := by
  have w : ∀ {x y : ℝ}, 1 ≤ x → 1 ≤ y → 1 ≤ x * y := fun {x y} hx hy => one_le_mul_of_one_le_of_one_le hx hy
  have k : ∀ {x y : ℝ}, 1 ≤ x → 1 ≤ y → x * y < X → x < X := fun {x y} hx hy hX =>
    lt_of_le_of_lt (le_mul_of_one_le_right (by linarith) hy) hX
  refine ⟨⟨?_, ?_, ?_, ?_, ?_, ?_⟩, ?_⟩
  · exact k ha (w hb (w (w hc hd) (w he hf))) (by convert h using 1; ring)
  · exact k hb (w ha (w (w hc hd) (w he hf))) (by convert h using 1; ring)
  · exact k hc (w ha (w (w hb hd) (w he hf))) (by convert h using 1; ring)
  · exact k hd (w ha (w (w hc hb) (w he hf))) (by convert h using 1; ring)
  · exact k he (w ha (w (w hc hd) (w hb hf))) (by convert h using 1; ring)
  · exact k hf (w ha (w (w hc hd) (w he hb))) (by convert h using 1; ring)
  · exact k (w (w ha hc) he) (w (w hb hd) hf) (by convert h using 1; ring)

theorem one_lt_OVER : 1 < OVER := lt_of_lt_of_le (one_lt_pow₀ one_lt_two (by norm_num)) le_OVER

/-- `fac1` neither underflows nor overflows. -/
theorem fac1_fin {j1 j2 m1 m2 J M : ℤ} (h : CGOk j1 j2 m1 m2 J M) (hJ : J ≤ 170) (hj1 : j1 ≤ 170) (hj2 : j2 ≤ 170) {A : ℝ}
    (hA : A = fct (J + j1 - j2) * fct (J - j1 + j2) * (fct (j1 + j2 - J) / fct (j1 + j2 + J + 1))) :
    1 / 2 ^ 1030 ≤ A ∧ A ≤ 1 ∧ 1 / 2 ^ 1030 ≤ (2 * J + 1) * A ∧ (2 * J + 1) * A ≤ 2 ^ 10 := by
  obtain ⟨h1, h2, h3, h4, h5, h6, h7, h8, h9, h10⟩ := h
  have hJ0 : 0 ≤ J := by omega
  have pos := fct_pos
  have hJr : (0 : ℝ) ≤ J := by exact_mod_cast hJ0
  have hJr' : (J : ℝ) ≤ 170 := by exact_mod_cast hJ
  have hA1 : A ≤ 1 := by
    have e1 := fct_mul_le h1 h2
    have e2 := fct_mul_le (a := (J + j1 - j2) + (J - j1 + j2)) (b := j1 + j2 - J) (by omega) h3
    have e3 : fct ((J + j1 - j2) + (J - j1 + j2) + (j1 + j2 - J)) ≤ fct (j1 + j2 + J + 1) := fct_mono (by omega)
    rw [hA, ← mul_div_assoc, div_le_one (pos _)]
    calc _ ≤ fct ((J + j1 - j2) + (J - j1 + j2)) * fct (j1 + j2 - J) := mul_le_mul_of_nonneg_right e1 (pos _).le
      _ ≤ _ := e2.trans e3
  have hA0 : 1 / 2 ^ 1030 ≤ A := by
    have e1 := fct_le_pow h1 h2
    have e2 := fct_le_pow (a := (J + j1 - j2) + (J - j1 + j2)) (b := j1 + j2 - J) (by omega) h3
    have e3 : fct (j1 + j2 + J + 1) = (j1 + j2 + J + 1 : ℤ) * fct ((J + j1 - j2) + (J - j1 + j2) + (j1 + j2 - J)) := by
      have := fct_succ (j1 + j2 + J) (by omega)
      rw [this, show (J + j1 - j2) + (J - j1 + j2) + (j1 + j2 - J) = j1 + j2 + J by ring]
      push_cast; ring
    have e4 : ((j1 + j2 + J + 1 : ℤ) : ℝ) ≤ 2 ^ 9 := by
      have : j1 + j2 + J + 1 ≤ 2 ^ 9 := by omega
      exact_mod_cast this
    have e5 : (2 : ℝ) ^ ((J + j1 - j2) + (J - j1 + j2)).toNat ≤ 2 ^ 340 := pow_le_pow_right₀ one_le_two (by omega)
    have e6 : (2 : ℝ) ^ ((J + j1 - j2) + (J - j1 + j2) + (j1 + j2 - J)).toNat ≤ 2 ^ 510 := pow_le_pow_right₀ one_le_two (by omega)
    have p3 : 0 < fct (J + j1 - j2) * fct (J - j1 + j2) := mul_pos (pos _) (pos _)
    have e7 : fct (j1 + j2 + J + 1) ≤ 2 ^ 9 * (2 ^ 510 * (2 ^ 340 * (fct (J + j1 - j2) * fct (J - j1 + j2)) * fct (j1 + j2 - J))) := by
      rw [e3]
      refine mul_le_mul e4 (e2.trans (mul_le_mul e6 (mul_le_mul_of_nonneg_right (e1.trans (mul_le_mul_of_nonneg_right e5 p3.le)) (pos _).le)
        (mul_nonneg (pos _).le (pos _).le) (by positivity))) (pos _).le (by positivity)
    rw [hA, ← mul_div_assoc, le_div_iff₀ (pos _), div_mul_eq_mul_div, one_mul, div_le_iff₀ (by positivity)]
    refine e7.trans ?_
    have e8 : (2 : ℝ) ^ 9 * (2 ^ 510 * 2 ^ 340) ≤ 2 ^ 1030 := by
      rw [← pow_add, ← pow_add]; exact (two_pow_lt (by norm_num)).le
    calc _ = (2 : ℝ) ^ 9 * (2 ^ 510 * 2 ^ 340) * (fct (J + j1 - j2) * fct (J - j1 + j2) * fct (j1 + j2 - J)) := by
          generalize (2 : ℝ) ^ 510 = x
          generalize (2 : ℝ) ^ 340 = y
          ring
      _ ≤ 2 ^ 1030 * (fct (J + j1 - j2) * fct (J - j1 + j2) * fct (j1 + j2 - J)) := mul_le_mul_of_nonneg_right e8 (mul_nonneg p3.le (pos _).le)
      _ = _ := mul_comm _ _
  have hApos : 0 < A := lt_of_lt_of_le (by positivity) hA0
  refine ⟨hA0, hA1, hA0.trans ?_, ?_⟩
  · exact le_mul_of_one_le_left hApos.le (by linarith)
  · calc _ ≤ (2 * J + 1 : ℝ) * 1 := mul_le_mul_of_nonneg_left hA1 (by linarith)
      _ ≤ _ := by norm_num; linarith

theorem cgBody_fin {j1 j2 m1 m2 J M : ℤ} (h : CGOk j1 j2 m1 m2 J M) (hP : prodP j1 j2 m1 m2 J M < OVER) {delta : ℝ}
    (hd : |delta| = 1) : cgBody delta j1 j2 m1 m2 J M = rnd (delta * Newt.cgBody j1 j2 m1 m2 J M) := by
  have one := one_le_fct
  have pos := fct_pos
  obtain ⟨h1, h2, h3, h4, h5, h6, h7, h8, h9, h10⟩ := id h
  obtain ⟨⟨b1, b2, b3, b4, b5, b6⟩, b7⟩ := six (one _) (one _) (one _) (one _) (one _) (one _) hP
  rw [fct_lt] at b1 b2 b3 b4 b5 b6
  have u : ∀ n : ℕ, n ≤ 1074 → UNDER < 1 / 2 ^ n := fun n hn =>
    one_div_lt_one_div_of_lt (by positivity) (two_pow_lt (by omega))
  have o : ∀ n : ℕ, n ≤ 1022 → (2 : ℝ) ^ n < OVER := fun n hn => (two_pow_lt (by omega)).trans_le le_OVER
  obtain ⟨a1, a2, a3, a4⟩ := fac1_fin h (by omega) (by omega) (by omega) (exp_fac1 h)
  have hPe := exp_fac2 h
  have hP1 : 1 ≤ prodP j1 j2 m1 m2 J M := by
    have w : ∀ {x y : ℝ}, 1 ≤ x → 1 ≤ y → 1 ≤ x * y := fun {x y} hx hy => one_le_mul_of_one_le_of_one_le hx hy
    exact w (w (w (one _) (one _)) (w (one _) (one _))) (w (one _) (one _))
  have a0 := a1
  have hJ0 : (0 : ℝ) ≤ (2 * J + 1) := by
    have : (0 : ℝ) ≤ J := by exact_mod_cast (by omega : 0 ≤ J)
    linarith
  have f1 : sqrt (mul (.fin (2 * J + 1)) (exp (gammaln (J + j1 - j2 + 1) + gammaln (J - j1 + j2 + 1)
      + (gammaln (j1 + j2 - J + 1) - gammaln (j1 + j2 + J + 2))))) =
      .fin (Real.sqrt ((2 * J + 1) * Real.exp (gammaln (J + j1 - j2 + 1) + gammaln (J - j1 + j2 + 1)
      + (gammaln (j1 + j2 - J + 1) - gammaln (j1 + j2 + J + 2))))) := by
    have p0 := (Real.exp_pos (gammaln (J + j1 - j2 + 1) + gammaln (J - j1 + j2 + 1)
      + (gammaln (j1 + j2 - J + 1) - gammaln (j1 + j2 + J + 2)))).le
    rw [exp, rnd_fin (by rw [abs_of_nonneg p0]; exact a2.trans_lt one_lt_OVER)
      (by rw [abs_of_nonneg p0]; exact (u 1030 (by norm_num)).trans_le a1), mul,
      rnd_fin (by rw [abs_of_nonneg (mul_nonneg hJ0 p0)]; exact a4.trans_lt (o 10 (by norm_num)))
      (by rw [abs_of_nonneg (mul_nonneg hJ0 p0)]; exact (u 1030 (by norm_num)).trans_le a3), sqrt_fin (mul_nonneg hJ0 p0)]
  have f2 : sqrt (exp (gammaln (J + M + 1) + gammaln (J - M + 1)
      + (gammaln (j1 - m1 + 1) + gammaln (j1 + m1 + 1)) + (gammaln (j2 - m2 + 1) + gammaln (j2 + m2 + 1)))) =
      .fin (Real.sqrt (Real.exp (gammaln (J + M + 1) + gammaln (J - M + 1)
      + (gammaln (j1 - m1 + 1) + gammaln (j1 + m1 + 1)) + (gammaln (j2 - m2 + 1) + gammaln (j2 + m2 + 1))))) := by
    rw [exp, hPe, rnd_fin (by rwa [abs_of_nonneg (by linarith)])
      (by rw [abs_of_nonneg (by linarith)]; refine lt_of_lt_of_le ?_ hP1; simpa using u 0 (by norm_num)), sqrt_fin (by linarith)]
  set kmin := max (max 0 (j2 - m1 - J)) (j1 + m2 - J) with hkmin
  set kmax := min (min (j1 + j2 - J) (j1 - m1)) (j2 + m2) with hkmax
  have f3 : sum ((irange kmin kmax).map fun k : ℤ => div (.fin ((-1 : ℝ) ^ k)) (exp
      (gammaln (k + 1) + gammaln (j1 + j2 - J - k + 1) + (gammaln (j1 - m1 - k + 1) + gammaln (j2 + m2 - k + 1))
        + (gammaln (J - j2 + m1 + k + 1) + gammaln (J - j1 - m2 + k + 1))))) =
      .fin (∑ k ∈ Finset.Icc kmin kmax, ((-1 : ℝ) ^ k) / Real.exp
      (gammaln (k + 1) + gammaln (j1 + j2 - J - k + 1)
        + (gammaln (j1 - m1 - k + 1) + gammaln (j2 + m2 - k + 1))
        + (gammaln (J - j2 + m1 + k + 1) + gammaln (J - j1 - m2 + k + 1)))) := by
    rw [← irange_sum]
    have key : ∀ k ∈ irange kmin kmax, div (.fin ((-1 : ℝ) ^ k)) (exp
      (gammaln (k + 1) + gammaln (j1 + j2 - J - k + 1) + (gammaln (j1 - m1 - k + 1) + gammaln (j2 + m2 - k + 1))
        + (gammaln (J - j2 + m1 + k + 1) + gammaln (J - j1 - m2 + k + 1)))) = .fin ((-1 : ℝ) ^ k / Real.exp
      (gammaln (k + 1) + gammaln (j1 + j2 - J - k + 1) + (gammaln (j1 - m1 - k + 1) + gammaln (j2 + m2 - k + 1))
        + (gammaln (J - j2 + m1 + k + 1) + gammaln (J - j1 - m2 + k + 1)))) ∧ |(-1 : ℝ) ^ k / Real.exp
      (gammaln (k + 1) + gammaln (j1 + j2 - J - k + 1) + (gammaln (j1 - m1 - k + 1) + gammaln (j2 + m2 - k + 1))
        + (gammaln (J - j2 + m1 + k + 1) + gammaln (J - j1 - m2 + k + 1)))| ≤ 1 := by
      intro k hk
      rw [mem_irange] at hk
      obtain ⟨D, hD, hD1, hD2⟩ := exp_den (j1 := j1) (j2 := j2) (m1 := m1) (m2 := m2) (J := J) (M := M) (k := k)
        (by omega) (by omega) (by omega) (by omega) (by omega) (by omega) h10
      have hD3 : D < OVER := hD2.trans_lt b7
      have hD0 : 0 < D := by linarith
      have hab : |(-1 : ℝ) ^ k / D| = 1 / D := by rw [abs_div, abs_zpow, abs_neg, abs_one, one_zpow, abs_of_pos hD0]
      have hle : 1 / D ≤ 1 := (div_le_one hD0).2 hD1
      have hDu : UNDER < D := lt_of_lt_of_le (by simpa using u 0 (by norm_num)) hD1
      rw [exp, hD, rnd_fin (by rwa [abs_of_pos hD0]) (by rwa [abs_of_pos hD0]), div_fin hD0.ne',
        rnd_fin (by rw [hab]; exact hle.trans_lt one_lt_OVER) (by rw [hab]; exact inv_fct_under hD0 hD3)]
      exact ⟨rfl, by rw [hab]; exact hle⟩
    rw [List.map_congr_left fun k hk => (key k hk).1, ← Function.comp_def FV.fin, ← List.map_map, sum_fin]
    rw [List.map_map]
    refine lt_of_le_of_lt (List.sum_le_card_nsmul _ 1 ?_) ?_
    · intro x hx
      obtain ⟨k, hk, rfl⟩ := List.mem_map.1 hx
      exact (key k hk).2
    · rw [List.length_map, irange_length, nsmul_eq_mul, mul_one]
      have : ((kmax + 1 - kmin).toNat : ℝ) ≤ 2 ^ 10 := by
        have : (kmax + 1 - kmin).toNat ≤ 2 ^ 10 := by omega
        exact_mod_cast this
      exact this.trans_lt (o 10 (by norm_num))
  rw [cgBody, Newt.cgBody]
  simp only [f1, f2, ← hkmin, ← hkmax, f3]
  generalize hs1 : Real.sqrt ((2 * J + 1) * Real.exp (gammaln (J + j1 - j2 + 1) + gammaln (J - j1 + j2 + 1)
      + (gammaln (j1 + j2 - J + 1) - gammaln (j1 + j2 + J + 2)))) = s1
  generalize hs2 : Real.sqrt (Real.exp (gammaln (J + M + 1) + gammaln (J - M + 1)
      + (gammaln (j1 - m1 + 1) + gammaln (j1 + m1 + 1)) + (gammaln (j2 - m2 + 1) + gammaln (j2 + m2 + 1)))) = s2
  have n1 : 1 / 2 ^ 515 ≤ s1 := by
    rw [← hs1]
    refine Real.le_sqrt_of_sq_le (le_trans (le_of_eq ?_) a3)
    rw [div_pow, one_pow, ← pow_mul]
  have n2 : s1 ≤ 2 ^ 5 := by
    rw [← hs1]
    refine Real.sqrt_le_iff.2 ⟨by positivity, a4.trans (le_of_eq ?_)⟩
    rw [← pow_mul]
  have n3 : 1 ≤ s2 := by
    rw [← hs2, hPe, Real.one_le_sqrt]; exact hP1
  have n4 : s2 ≤ 2 ^ 512 := by
    rw [← hs2, hPe]
    refine Real.sqrt_le_iff.2 ⟨by positivity, hP.le.trans (OVER_lt.le.trans (le_of_eq ?_))⟩
    rw [← pow_mul]
  have n0 : 0 < s1 := lt_of_lt_of_le (by positivity) n1
  have c1 : |delta * s1| = s1 := by rw [abs_mul, hd, one_mul, abs_of_pos n0]
  have c2 : |delta * s1 * s2| = s1 * s2 := by rw [abs_mul, c1, abs_of_pos (by linarith)]
  rw [mul, rnd_fin (by rw [c1]; exact n2.trans_lt (o 5 (by norm_num))) (by rw [c1]; exact (u 515 (by norm_num)).trans_le n1), mul,
    rnd_fin (by
      rw [c2]
      refine lt_of_le_of_lt (mul_le_mul n2 n4 (by linarith) (by positivity)) ?_
      rw [← pow_add]; exact o _ (by norm_num))
    (by rw [c2]; exact (u 515 (by norm_num)).trans_le (n1.trans (le_mul_of_one_le_right n0.le n3))), mul]
  congr 1
  ring

theorem cgBody_inf {j1 j2 m1 m2 J M : ℤ} (h : CGOk j1 j2 m1 m2 J M) (hP : OVER ≤ prodP j1 j2 m1 m2 J M) (delta : ℝ) :
    ¬ IsFin (cgBody delta j1 j2 m1 m2 J M) := by
  intro hf
  rw [cgBody] at hf
  obtain ⟨x, hx⟩ := sqrt_isFin (mul_isFin (mul_isFin hf).1).2
  rw [exp, exp_fac2 h, rnd_over hP] at hx
  cases hx

theorem prodP_neg (j1 j2 m1 m2 J M : ℤ) : prodP j1 j2 (-m1) (-m2) J (-M) = prodP j1 j2 m1 m2 J M := by
  simp only [prodP, sub_neg_eq_add, ← sub_eq_add_neg]
  ring

theorem cgCoeff_range {j1 j2 m1 m2 J M : ℤ} (h : CGValid j1 j2 m1 m2 J M) :
    (prodP j1 j2 m1 m2 J M < OVER → cgCoeff j1 j2 m1 m2 J M = rnd (Newt.cgCoeff j1 j2 m1 m2 J M)) ∧
    (OVER ≤ prodP j1 j2 m1 m2 J M → ¬ IsFin (cgCoeff j1 j2 m1 m2 J M)) := by
  have ok := cgok_of_valid h
  obtain ⟨a, b, c, d, e, f⟩ := h
  have n1 : ¬ (j1 < |m1| ∨ j2 < |m2| ∨ J < |M|) := by rintro (h | h | h) <;> omega
  have n2 : ¬ (J > j1 + j2 ∨ J < |j1 - j2|) := by rintro (h | h) <;> omega
  rw [cgCoeff, if_neg n1, if_neg n2, Newt.cgCoeff, if_neg n1, if_neg n2]
  simp only [if_pos f, one_mul]
  split_ifs with hM
  · refine ⟨fun hP => ?_, fun hP => ?_⟩
    · exact cgBody_fin (cgok_neg ok) (by rwa [prodP_neg]) (by rw [abs_zpow, abs_neg, abs_one, one_zpow])
    · exact cgBody_inf (cgok_neg ok) (by rwa [prodP_neg]) _
  · refine ⟨fun hP => ?_, fun hP => ?_⟩
    · rw [cgBody_fin ok hP (abs_one), one_mul]
    · exact cgBody_inf ok hP _

end Newt.Rng
