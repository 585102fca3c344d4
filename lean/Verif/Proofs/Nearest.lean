import Verif.Spec.MomRounding
import Verif.Props.Rounding

/-!
# Rounding to nearest
-/

namespace Newt

open Spec

theorem round_mono' {x y : ℝ} (h : x ≤ y) : round x ≤ round y := by
  rw [round_eq, round_eq]
  exact Int.floor_le_floor (by linarith)

theorem rep_zero (p : ℕ) : Rep p 0 := ⟨0, 0, by simp, by simp⟩

theorem rep_one {p : ℕ} (hp : 1 ≤ p) : Rep p 1 := ⟨1, 0, by
  rw [abs_one]; exact one_lt_pow₀ (by norm_num) (by omega), by simp⟩

theorem rep_neg {p : ℕ} {x : ℝ} (h : Rep p x) : Rep p (-x) := by
  obtain ⟨k, e, hk, rfl⟩ := h
  exact ⟨-k, e, by rwa [abs_neg], by push_cast; ring⟩

theorem rep_abs {p : ℕ} {x : ℝ} (h : Rep p x) : Rep p |x| := by
  rcases abs_cases x with ⟨e, -⟩ | ⟨e, -⟩ <;> rw [e]
  · exact h
  · exact rep_neg h

/-- The carry `2^p 2^e` is a floating point number too. -/
theorem rep_le {p : ℕ} (hp : 1 ≤ p) {k e : ℤ} (hk : |k| ≤ 2 ^ p) : Rep p (k * (2 : ℝ) ^ e) := by
  rcases lt_or_eq_of_le hk with h | h
  · exact ⟨k, e, h, rfl⟩
  · obtain ⟨q, rfl⟩ : ∃ q, p = q + 1 := ⟨p - 1, by omega⟩
    have key : Rep (q + 1) ((2 : ℝ) ^ (q + 1) * 2 ^ e) := ⟨2 ^ q, e + 1, by
      rw [abs_of_pos (by positivity)]; exact pow_lt_pow_right₀ (by norm_num) (by omega), by
      rw [zpow_add₀ (by norm_num)]; push_cast; ring⟩
    rcases abs_choice k with h' | h' <;> rw [h'] at h
    · rw [h]; exact_mod_cast key
    · have : k = -2 ^ (q + 1) := by omega
      rw [this]
      have := rep_neg key
      push_cast
      rwa [neg_mul]

theorem nearest_ge {p : ℕ} {x y z : ℝ} (h : Nearest p x y) (hz : Rep p z) (hzx : z ≤ x) : z ≤ y := by
  by_contra hc
  push Not at hc
  have := h.2 z hz
  rw [abs_of_nonpos (by linarith : y - x ≤ 0), abs_of_nonpos (by linarith : z - x ≤ 0)] at this
  linarith

theorem nearest_le {p : ℕ} {x y z : ℝ} (h : Nearest p x y) (hz : Rep p z) (hzx : x ≤ z) : y ≤ z := by
  by_contra hc
  push Not at hc
  have := h.2 z hz
  rw [abs_of_nonneg (by linarith : 0 ≤ y - x), abs_of_nonneg (by linarith : 0 ≤ z - x)] at this
  linarith

theorem nearest_rep {p : ℕ} {x y : ℝ} (h : Nearest p x y) (hx : Rep p x) : y = x := by
  have := h.2 x hx
  rw [sub_self, abs_zero] at this
  exact sub_eq_zero.1 (abs_nonpos_iff.1 this)

/-- The normal form of a number that is not zero. -/
theorem rep_normal {p : ℕ} (hp : 1 ≤ p) {x : ℝ} (h : Rep p x) (hx : 0 < x) :
    ∃ (k : ℕ) (e : ℤ), 2 ^ (p - 1) ≤ k ∧ k < 2 ^ p ∧ x = k * (2 : ℝ) ^ e := by
  obtain ⟨k, e, hk, rfl⟩ := h
  have hk0 : 0 < k := by
    have h2 : (0 : ℝ) < 2 ^ e := by positivity
    exact_mod_cast pos_of_mul_pos_of_pos_right hx h2.le
  lift k to ℕ using hk0.le with n
  have hn : n < 2 ^ p := by rw [abs_of_pos hk0] at hk; exact_mod_cast hk
  have hn0 : 0 < n := by exact_mod_cast hk0
  set g := p - 1 - Nat.log 2 n with hg
  have h1 := Nat.pow_log_le_self 2 hn0.ne'
  have h2 := Nat.lt_pow_succ_log_self (b := 2) (by norm_num) n
  have h3 : Nat.log 2 n ≤ p - 1 := by
    have : Nat.log 2 n < p := (Nat.log_lt_iff_lt_pow (by norm_num) hn0.ne').2 hn
    omega
  refine ⟨n * 2 ^ g, e - g, ?_, ?_, ?_⟩
  · calc 2 ^ (p - 1) = 2 ^ Nat.log 2 n * 2 ^ g := by rw [← pow_add]; congr 1; omega
      _ ≤ n * 2 ^ g := by gcongr
  · calc n * 2 ^ g < 2 ^ (Nat.log 2 n + 1) * 2 ^ g := by gcongr
      _ = 2 ^ p := by rw [← pow_add]; congr 1; omega
  · rw [zpow_sub₀ (by norm_num), zpow_natCast]
    push_cast
    field_simp
where
  pos_of_mul_pos_of_pos_right {a b : ℝ} (h : 0 < a * b) (hb : 0 ≤ b) : 0 < a := pos_of_mul_pos_left h hb

/-- The root of a rounded square, or of anything larger, is not rounded below the number itself. -/
theorem nearest_sqrt_sq {p : ℕ} (hp : 1 ≤ p) {x s t r : ℝ} (hx : Rep p x) (hs : Nearest p (x ^ 2) s) (hst : s ≤ t) (hr : Nearest p (Real.sqrt t) r) :
    |x| ≤ r := by
  by_cases h0 : x = 0
  · subst h0
    rw [abs_zero]
    exact nearest_ge hr (rep_zero p) (Real.sqrt_nonneg _)
  have hpos : 0 < |x| := abs_pos.2 h0
  obtain ⟨k, e, hk1, hk2, hk⟩ := rep_normal hp (rep_abs hx) hpos
  rw [← sq_abs] at hs
  by_contra hc
  push Not at hc
  have hE : (0 : ℝ) < 2 ^ e := by positivity
  have hx2 : |x| ^ 2 = (k : ℝ) ^ 2 * 2 ^ (2 * e) := by
    rw [hk, mul_pow]; congr 1; rw [← zpow_natCast, ← zpow_mul]; congr 1; ring
  have hE2 : ((2 : ℝ) ^ e) ^ 2 = 2 ^ (2 * e) := by rw [← zpow_natCast, ← zpow_mul]; congr 1; ring
  have hsqrt : Real.sqrt s ≤ Real.sqrt t := Real.sqrt_le_sqrt hst
  have hr0 : 0 ≤ r := nearest_ge hr (rep_zero p) (Real.sqrt_nonneg _)
  -- the root is nearer to `r` than to `|x|`
  have hlt : Real.sqrt t < |x| := by
    by_contra h
    push Not at h
    exact absurd (nearest_ge hr (rep_abs hx) h) (not_le.2 hc)
  have hmid : Real.sqrt t ≤ (r + |x|) / 2 := by
    have := hr.2 _ (rep_abs hx)
    rw [abs_of_pos (by linarith : 0 < |x| - Real.sqrt t)] at this
    have := (abs_le.1 this).1
    linarith
  have hs0 : 0 ≤ s := nearest_ge hs (rep_zero p) (by positivity)
  have hsle : s ≤ ((r + |x|) / 2) ^ 2 := by
    have h1 : Real.sqrt s ≤ (r + |x|) / 2 := hsqrt.trans hmid
    calc s = Real.sqrt s ^ 2 := (Real.sq_sqrt hs0).symm
      _ ≤ _ := by gcongr
  by_cases hk3 : k = 2 ^ (p - 1)
  · -- a power of two has an exact square
    have hrep : Rep p (|x| ^ 2) := by
      rw [hx2, hk3]
      refine ⟨1, 2 * ((p - 1 : ℕ) : ℤ) + 2 * e, by rw [abs_one]; exact one_lt_pow₀ (by norm_num) (by omega), ?_⟩
      rw [zpow_add₀ (by norm_num), Int.cast_one, one_mul]
      congr 1
      rw [Nat.cast_pow, ← pow_mul, ← zpow_natCast]
      congr 1
      push_cast
      ring
    rw [nearest_rep hs hrep] at hsle
    have : |x| ≤ (r + |x|) / 2 := abs_le_of_sq_le_sq' hsle (by positivity) |>.2
    linarith
  · have hk4 : 2 ^ (p - 1) + 1 ≤ k := by omega
    -- `r` is at most the number before `|x|`
    have hrk : r ≤ ((k : ℝ) - 1) * 2 ^ e := by
      by_cases hr00 : r = 0
      · rw [hr00]
        have : (1 : ℝ) ≤ k := by exact_mod_cast (le_trans (Nat.le_add_left 1 _) hk4 : 1 ≤ k)
        have : (0 : ℝ) ≤ (k : ℝ) - 1 := by linarith
        positivity
      obtain ⟨j, f, hj1, hj2, hj⟩ := rep_normal hp hr.1 (lt_of_le_of_ne hr0 (Ne.symm hr00))
      rw [hj]
      rcases lt_trichotomy f e with hf | rfl | hf
      · -- a lower binade
        have h1 : (2 : ℝ) ^ f ≤ 2 ^ (e - 1) := zpow_le_zpow_right₀ (by norm_num) (by omega)
        have h2 : (j : ℝ) ≤ 2 ^ p := by exact_mod_cast hj2.le
        have h3 : (2 : ℝ) ^ p = 2 * 2 ^ (p - 1) := by rw [← pow_succ']; congr 1; omega
        have h4 : ((2 : ℝ) ^ (p - 1)) + 1 ≤ k := by exact_mod_cast hk4
        have h5 : (2 : ℝ) ^ (e - 1) = 2 ^ e / 2 := by rw [zpow_sub₀ (by norm_num)]; simp
        calc (j : ℝ) * 2 ^ f ≤ 2 ^ p * 2 ^ (e - 1) := by gcongr
          _ = 2 ^ (p - 1) * 2 ^ e := by rw [h3, h5]; ring
          _ ≤ _ := by gcongr; linarith
      · rw [hj, hk] at hc
        have : (j : ℝ) < k := lt_of_mul_lt_mul_right hc hE.le
        have : j + 1 ≤ k := by exact_mod_cast this
        have : (j : ℝ) + 1 ≤ k := by exact_mod_cast this
        gcongr
        linarith
      · exfalso
        rw [hj, hk] at hc
        have h1 : (2 : ℝ) ^ (e + 1) ≤ 2 ^ f := zpow_le_zpow_right₀ (by norm_num) (by omega)
        have h2 : (2 : ℝ) ^ (p - 1) ≤ j := by exact_mod_cast hj1
        have h3 : (2 : ℝ) ^ p = 2 * 2 ^ (p - 1) := by rw [← pow_succ']; congr 1; omega
        have h4 : (k : ℝ) ≤ 2 ^ p := by exact_mod_cast hk2.le
        have : (k : ℝ) * 2 ^ e ≤ j * 2 ^ f := calc
          (k : ℝ) * 2 ^ e ≤ 2 ^ p * 2 ^ e := by gcongr
          _ = 2 ^ (p - 1) * 2 ^ (e + 1) := by rw [h3, zpow_add₀ (by norm_num)]; ring
          _ ≤ _ := by gcongr
        linarith
    -- the square is rounded by at most half a unit
    set m := round ((k : ℝ) ^ 2 / 2 ^ p) with hm
    have hP : (0 : ℝ) < 2 ^ p := by positivity
    have hm1 : |(m : ℝ) * 2 ^ p - (k : ℝ) ^ 2| ≤ 2 ^ (p - 1) := by
      have h1 := abs_sub_round ((k : ℝ) ^ 2 / 2 ^ p)
      have h3 : (2 : ℝ) ^ p = 2 * 2 ^ (p - 1) := by rw [← pow_succ']; congr 1; omega
      have e1 : (m : ℝ) * 2 ^ p - (k : ℝ) ^ 2 = -(((k : ℝ) ^ 2 / 2 ^ p - m) * 2 ^ p) := by field_simp; ring
      rw [e1, abs_neg, abs_mul, abs_of_pos hP]
      calc _ ≤ 1 / 2 * (2 : ℝ) ^ p := by gcongr
        _ = _ := by rw [h3]; ring
    have hmrep : Rep p ((m : ℝ) * 2 ^ p * 2 ^ (2 * e)) := by
      have e1 : (m : ℝ) * 2 ^ p * 2 ^ (2 * e) = m * 2 ^ ((p : ℤ) + 2 * e) := by
        rw [zpow_add₀ (by norm_num), zpow_natCast]; ring
      rw [e1]
      refine rep_le hp ?_
      have hm0 : 0 ≤ m := by rw [hm, round_eq]; positivity
      rw [abs_of_nonneg hm0]
      have h4 : (k : ℝ) ≤ 2 ^ p := by exact_mod_cast hk2.le
      have h5 : (k : ℝ) ^ 2 / 2 ^ p ≤ 2 ^ p := by
        rw [div_le_iff₀ hP]
        calc (k : ℝ) ^ 2 ≤ (2 ^ p) ^ 2 := by gcongr
          _ = _ := by ring
      have h6 := round_mono' h5
      rw [← hm] at h6
      have h7 : round ((2 : ℝ) ^ p) = 2 ^ p := by
        have : ((2 : ℝ) ^ p) = (((2 : ℤ) ^ p : ℤ) : ℝ) := by push_cast; rfl
        rw [this, round_intCast]
      rwa [h7] at h6
    have hsx := hs.2 _ hmrep
    rw [hx2] at hsx
    have hsx' : (k : ℝ) ^ 2 * 2 ^ (2 * e) - s ≤ 2 ^ (p - 1) * 2 ^ (2 * e) := by
      have h8 : |(m : ℝ) * 2 ^ p * 2 ^ (2 * e) - (k : ℝ) ^ 2 * 2 ^ (2 * e)| ≤ 2 ^ (p - 1) * 2 ^ (2 * e) := by
        rw [← sub_mul, abs_mul, abs_of_pos (by positivity : (0 : ℝ) < 2 ^ (2 * e))]
        gcongr
      have := (abs_le.1 (hsx.trans h8)).1
      linarith
    have h9 : s ≤ ((k : ℝ) - 1 / 2) ^ 2 * 2 ^ (2 * e) := by
      refine hsle.trans ?_
      rw [hk, ← hE2, ← mul_pow]
      gcongr
      linarith
    have hk5 : ((2 : ℝ) ^ (p - 1)) + 1 ≤ k := by exact_mod_cast hk4
    have hE3 : (0 : ℝ) < 2 ^ (2 * e) := by positivity
    nlinarith

theorem rep_binRound {p : ℕ} (hp : 1 ≤ p) (x : ℝ) : Rep p (binRound p x) := by
  rw [binRound]
  refine rep_le hp ?_
  by_cases hx : x = 0
  · subst hx; simp
  have h1 := Int.lt_zpow_succ_log_self (b := 2) (by norm_num) |x|
  set E := Int.log 2 |x|
  have h2 : |x * (2 : ℝ) ^ ((p : ℤ) - 1 - E)| ≤ 2 ^ p := by
    rw [abs_mul, abs_of_pos (by positivity : (0 : ℝ) < 2 ^ ((p : ℤ) - 1 - E))]
    push_cast at h1
    calc |x| * (2 : ℝ) ^ ((p : ℤ) - 1 - E) ≤ 2 ^ (E + 1) * 2 ^ ((p : ℤ) - 1 - E) := by gcongr
      _ = 2 ^ p := by rw [← zpow_add₀ (by norm_num), ← zpow_natCast]; congr 1; ring
  obtain ⟨h3, h4⟩ := abs_le.1 h2
  have e1 : ∀ k : ℤ, round ((k : ℤ) : ℝ) = k := fun k => round_intCast k
  have h5 := round_mono' h3
  have h6 := round_mono' h4
  have e2 : (2 : ℝ) ^ p = (((2 : ℤ) ^ p : ℤ) : ℝ) := by push_cast; rfl
  rw [e2, ← Int.cast_neg, e1] at h5
  rw [e2, e1] at h6
  exact abs_le.2 ⟨h5, h6⟩

/-- Every number has a nearest floating point number. -/
theorem nearest_binRound {p : ℕ} (hp : 1 ≤ p) (x : ℝ) : Nearest p x (binRound p x) := by
  refine ⟨rep_binRound hp x, fun z hz => ?_⟩
  by_cases hx : x = 0
  · subst hx
    simp [binRound]
  have hx0 : 0 < |x| := abs_pos.2 hx
  have h1 := Int.lt_zpow_succ_log_self (b := 2) (by norm_num) |x|
  have h2 := Int.zpow_log_le_self (b := 2) (by norm_num) hx0
  rw [binRound]
  set E := Int.log 2 |x|
  push_cast at h1 h2
  have hU : (0 : ℝ) < 2 ^ (E + 1 - (p : ℤ)) := by positivity
  have eU : (2 : ℝ) ^ ((p : ℤ) - 1 - E) * 2 ^ (E + 1 - (p : ℤ)) = 1 := by
    rw [← zpow_add₀ (by norm_num), show (p : ℤ) - 1 - E + (E + 1 - p) = 0 by ring, zpow_zero]
  -- every multiple of the unit is at least as far
  have grid : ∀ k : ℤ, |(round (x * (2 : ℝ) ^ ((p : ℤ) - 1 - E)) : ℝ) * 2 ^ (E + 1 - (p : ℤ)) - x| ≤ |(k : ℝ) * 2 ^ (E + 1 - (p : ℤ)) - x| := by
    intro k
    have h := round_le (x * (2 : ℝ) ^ ((p : ℤ) - 1 - E)) k
    have e : ∀ c : ℝ, |c * 2 ^ (E + 1 - (p : ℤ)) - x| = |x * (2 : ℝ) ^ ((p : ℤ) - 1 - E) - c| * 2 ^ (E + 1 - (p : ℤ)) := by
      intro c
      rw [← abs_of_pos hU, ← abs_mul, abs_of_pos hU, abs_sub_comm, sub_mul, mul_assoc, eU, mul_one]
    rw [e, e]
    gcongr
  by_cases hz2 : 2 ^ E ≤ |z|
  · -- `z` is a multiple of the unit
    have hz0 : 0 < |z| := lt_of_lt_of_le (by positivity) hz2
    obtain ⟨k, e, hk1, hk2, hk⟩ := rep_normal hp (rep_abs hz) hz0
    have he : E + 1 - (p : ℤ) ≤ e := by
      by_contra hc
      push Not at hc
      have h3 : (2 : ℝ) ^ e ≤ 2 ^ (E - p) := zpow_le_zpow_right₀ (by norm_num) (by omega)
      have h4 : (k : ℝ) < 2 ^ p := by exact_mod_cast hk2
      have : |z| < 2 ^ E := by
        rw [hk]
        calc (k : ℝ) * 2 ^ e < 2 ^ p * 2 ^ e := by gcongr
          _ ≤ 2 ^ p * 2 ^ (E - p) := by gcongr
          _ = 2 ^ E := by rw [← zpow_natCast, ← zpow_add₀ (by norm_num)]; congr 1; ring
      linarith
    obtain ⟨d, hd⟩ : ∃ d : ℕ, e = E + 1 - p + d := ⟨(e - (E + 1 - p)).toNat, by omega⟩
    have hk' : |z| = ((k * 2 ^ d : ℤ) : ℝ) * 2 ^ (E + 1 - (p : ℤ)) := by
      rw [hk, hd, zpow_add₀ (by norm_num), zpow_natCast]; push_cast; ring
    rcases abs_choice z with h | h
    · have := grid (k * 2 ^ d)
      rwa [← hk', h] at this
    · have := grid (-(k * 2 ^ d))
      rwa [Int.cast_neg, neg_mul, ← hk', h, neg_neg] at this
  · -- `z` is below the binade of `x`: the power of two is nearer
    push Not at hz2
    have hpow : ((2 ^ (p - 1) : ℤ) : ℝ) * 2 ^ (E + 1 - (p : ℤ)) = 2 ^ E := by
      push_cast
      rw [← zpow_natCast, ← zpow_add₀ (by norm_num)]; congr 1; omega
    rcases lt_or_gt_of_ne hx with h | h
    · rw [abs_of_neg h] at h2
      have := grid (-(2 ^ (p - 1)))
      rw [Int.cast_neg, neg_mul, hpow] at this
      refine this.trans ?_
      have := (abs_lt.1 hz2).1
      rw [abs_of_nonneg (by linarith), abs_of_nonneg (by linarith)]
      linarith
    · rw [abs_of_pos h] at h2
      have := grid (2 ^ (p - 1))
      rw [hpow] at this
      refine this.trans ?_
      have := (abs_lt.1 hz2).2
      rw [abs_of_nonpos (by linarith), abs_of_nonpos (by linarith)]
      linarith

theorem nearest_rd {p : ℕ} (hp : 1 ≤ p) {x y : ℝ} (h : Nearest p x y) : |y - x| ≤ (2 : ℝ)⁻¹ ^ p * |x| :=
  (h.2 _ (rep_binRound hp x)).trans (C112_binary p x)

end Newt
