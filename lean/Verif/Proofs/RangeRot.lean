import Verif.Proofs.Range
import Verif.Proofs.SphHarm
import Mathlib.Data.Nat.Choose.Central

/-! # Range of the Wigner matrices and of the coaxial translations -/

namespace Newt.Rng

open Spec

theorem rnd_near {x : ℝ} (h : |x| < OVER) : ∃ y, rnd x = .fin y ∧ |y - x| ≤ UNDER ∧ |y| ≤ |x| := by
  rw [rnd, if_neg (not_le.2 h)]
  split_ifs with hu
  · exact ⟨0, rfl, by rwa [zero_sub, abs_neg], by rw [abs_zero]; exact abs_nonneg x⟩
  · exact ⟨x, rfl, by rw [sub_self, abs_zero]; exact UNDER_pos.le, le_rfl⟩

theorem spFactorial_eq {n : ℤ} (h : 0 ≤ n) : spFactorial n = fct n := by rw [spFactorial, if_neg (by omega), fct]

theorem UNDER_lt_one : UNDER < 1 := by
  have := under_lt (x := 1) (by rw [div_le_one (by positivity)]; exact one_le_pow₀ one_le_two)
  exact this

theorem factorial_fin {n : ℤ} (h0 : 0 ≤ n) (h : n ≤ 170) : factorial n = .fin (fct n) := by
  have p := fct_pos n
  rw [factorial, spFactorial_eq h0, rnd_fin (by rw [abs_of_pos p]; exact fct_lt.2 h)
    (by rw [abs_of_pos p]; exact UNDER_lt_one.trans_le (one_le_fct n))]

theorem factorial_inf {n : ℤ} (h : 170 < n) : factorial n = .inf false := by
  rw [factorial, spFactorial_eq (by omega), rnd_over]
  by_contra hc
  exact absurd (fct_lt.1 (not_le.1 hc)) (by omega)

theorem factorial_isFin {n : ℤ} (h0 : 0 ≤ n) : IsFin (factorial n) ↔ n ≤ 170 := by
  constructor
  · rintro ⟨x, hx⟩
    by_contra hc
    rw [factorial_inf (by omega)] at hx
    cases hx
  · intro h
    exact ⟨_, factorial_fin h0 h⟩

/-- The product of two factorials. -/
theorem mul_factorial {a b : ℤ} (ha : 0 ≤ a) (hb : 0 ≤ b) (h : fct a * fct b < OVER) : mul (factorial a) (factorial b) = .fin (fct a * fct b) := by
  have one := one_le_fct
  have h1 : fct a < OVER := lt_of_le_of_lt (le_mul_of_one_le_right (fct_pos a).le (one b)) h
  have h2 : fct b < OVER := lt_of_le_of_lt (le_mul_of_one_le_left (fct_pos b).le (one a)) h
  have h3 : 1 ≤ fct a * fct b := one_le_mul_of_one_le_of_one_le (one a) (one b)
  rw [factorial_fin ha (fct_lt.1 h1), factorial_fin hb (fct_lt.1 h2), mul, rnd_fin (by rwa [abs_of_nonneg (by linarith)])
    (by rw [abs_of_nonneg (by linarith)]; exact UNDER_lt_one.trans_le h3)]

theorem mul_factorial_isFin {a b : ℤ} (ha : 0 ≤ a) (hb : 0 ≤ b) : IsFin (mul (factorial a) (factorial b)) ↔ fct a * fct b < OVER := by
  refine ⟨fun h => ?_, fun h => ⟨_, mul_factorial ha hb h⟩⟩
  obtain ⟨h1, h2⟩ := mul_isFin h
  rw [factorial_isFin ha] at h1
  rw [factorial_isFin hb] at h2
  rw [factorial_fin ha h1, factorial_fin hb h2, mul] at h
  by_contra hc
  rw [rnd_over (not_lt.1 hc)] at h
  obtain ⟨x, hx⟩ := h
  cases hx

/-- The real number `Dlmn` sums. -/
noncomputable def dTerm (l m n : ℤ) (beta : ℝ) (k : ℤ) : ℝ :=
  (-1 : ℝ) ^ k * Real.cos (beta / 2) ^ (2 * l + m - n - 2 * k) * Real.sin (beta / 2) ^ (n - m + 2 * k)

theorem zpow_abs_le {x : ℝ} (hx : |x| ≤ 1) {p : ℤ} (hp : 0 ≤ p) : |x ^ p| ≤ 1 := by
  obtain ⟨p, rfl⟩ := Int.eq_ofNat_of_zero_le hp
  rw [zpow_natCast, abs_pow]
  exact pow_le_one₀ (abs_nonneg _) hx

theorem dTerm_le {l m n : ℤ} (beta : ℝ) {k : ℤ} (h1 : m - n ≤ k) (h2 : 0 ≤ k) (h3 : k ≤ l + m) (h4 : k ≤ l - n) :
    |dTerm l m n beta k| ≤ 1 := by
  rw [dTerm, abs_mul, abs_mul, abs_zpow, abs_neg, abs_one, one_zpow, one_mul]
  exact mul_le_one₀ (zpow_abs_le (Real.abs_cos_le_one _) (by omega)) (abs_nonneg _) (zpow_abs_le (Real.abs_sin_le_one _) (by omega))

/-- One term of the sum: value and error. -/
theorem term_near {x D1 D2 : ℝ} (hx : |x| ≤ 1) (h1 : 1 ≤ D1) (h2 : 1 ≤ D2) :
    ∃ t, div (div (rnd x) (.fin D1)) (.fin D2) = .fin t ∧ |t - x / D1 / D2| ≤ 3 * UNDER ∧ |t| ≤ 1 / (D1 * D2) := by
  have p1 : 0 < D1 := by linarith
  have p2 : 0 < D2 := by linarith
  obtain ⟨y, hy, e0, b0⟩ := rnd_near (hx.trans_lt one_lt_OVER)
  have hyD : |y / D1| ≤ |x| / D1 := by rw [abs_div, abs_of_pos p1]; exact div_le_div_of_nonneg_right b0 p1.le
  have hx1 : |x| / D1 ≤ 1 := (div_le_one p1).2 (hx.trans h1)
  obtain ⟨z, hz, e1, b1⟩ := rnd_near ((hyD.trans hx1).trans_lt one_lt_OVER)
  have hzD : |z / D2| ≤ |z| / D2 := by rw [abs_div, abs_of_pos p2]
  have hz1 : |z| / D2 ≤ 1 := (div_le_one p2).2 ((b1.trans (hyD.trans hx1)).trans h2)
  obtain ⟨t, ht, e2, b2⟩ := rnd_near ((hzD.trans hz1).trans_lt one_lt_OVER)
  refine ⟨t, ?_, ?_, ?_⟩
  · rw [hy, div_fin p1.ne', hz, div_fin p2.ne', ht]
  · have k1 : |y / D1 - x / D1| ≤ UNDER := by
      rw [← sub_div, abs_div, abs_of_pos p1]
      exact (div_le_self (abs_nonneg _) h1).trans e0
    have k2 : |z - x / D1| ≤ 2 * UNDER := by
      have := abs_sub_le z (y / D1) (x / D1); linarith
    have k3 : |z / D2 - x / D1 / D2| ≤ 2 * UNDER := by
      rw [← sub_div, abs_div, abs_of_pos p2]
      exact (div_le_self (abs_nonneg _) h2).trans k2
    have := abs_sub_le t (z / D2) (x / D1 / D2); linarith
  · refine b2.trans (hzD.trans ?_)
    rw [← div_div]
    refine div_le_div_of_nonneg_right (b1.trans (hyD.trans ?_)) p2.le
    exact div_le_div_of_nonneg_right hx p1.le

theorem sum_near (ks : List ℤ) (F : ℤ → FV) (x b : ℤ → ℝ) (e : ℝ) (h : ∀ k ∈ ks, ∃ t, F k = .fin t ∧ |t - x k| ≤ e ∧ |t| ≤ b k)
    (hb : (ks.map b).sum < OVER) :
    ∃ s, sum (ks.map F) = .fin s ∧ |s - (ks.map x).sum| ≤ ks.length * e ∧ |s| ≤ (ks.map b).sum := by
  classical
  choose! t h1 h2 h3 using h
  have e1 : ks.map F = (ks.map t).map FV.fin := by
    rw [List.map_map]; exact List.map_congr_left fun k hk => h1 k hk
  have e2 : ((ks.map t).map abs).sum ≤ (ks.map b).sum := by
    rw [List.map_map]; exact List.sum_le_sum fun k hk => h3 k hk
  refine ⟨(ks.map t).sum, ?_, ?_, ?_⟩
  · rw [e1, sum_fin _ (e2.trans_lt hb)]
  · clear e1 e2 hb h1 h3
    induction ks with
    | nil => simp
    | cons k ks ih =>
      have i1 := h2 k List.mem_cons_self
      have i2 := ih fun j hj => h2 j (List.mem_cons_of_mem _ hj)
      simp only [List.map_cons, List.sum_cons, List.length_cons, Nat.cast_add, Nat.cast_one]
      have : |t k + (ks.map t).sum - (x k + (ks.map x).sum)| ≤ |t k - x k| + |(ks.map t).sum - (ks.map x).sum| := by
        rw [show t k + (ks.map t).sum - (x k + (ks.map x).sum) = (t k - x k) + ((ks.map t).sum - (ks.map x).sum) by ring]
        exact abs_add_le _ _
      linarith
  · refine le_trans ?_ e2
    clear e1 e2 hb h1 h2 h3
    induction ks with
    | nil => simp
    | cons k ks ih =>
      simp only [List.map_cons, List.sum_cons]
      exact (abs_add_le _ _).trans (by linarith)

theorem dlmn_near {l m n : ℤ} (hm : |m| ≤ l) (hn : |n| ≤ l) (beta : ℝ) (h1 : fct (l - m) * fct (l + m) < OVER)
    (h2 : fct (l - n) * fct (l + n) < OVER) :
    ∃ y, Dlmn l m n beta = .fin y ∧ |y - (∑ k ∈ Finset.Icc (max (m - n) 0) (min (l + m) (l - n)),
      dTerm l m n beta k / (fct k * fct (l + m - k)) / (fct (l - n - k) * fct (n - m + k))) * (-1) ^ (n - m)
        * Real.sqrt (fct (l - m) * fct (l + m)) * Real.sqrt (fct (l - n) * fct (l + n))| ≤ 1 / 2 ^ 40 := by
  have am := abs_le.1 hm
  have an := abs_le.1 hn
  have one := one_le_fct
  have pos := fct_pos
  have w : ∀ {x y : ℝ}, 1 ≤ x → 1 ≤ y → 1 ≤ x * y := fun {x y} hx hy => one_le_mul_of_one_le_of_one_le hx hy
  have k1 : ∀ {x y : ℝ}, 1 ≤ x → 1 ≤ y → x * y < OVER → x < OVER := fun {x y} hx hy hX =>
    lt_of_le_of_lt (le_mul_of_one_le_right (by linarith) hy) hX
  have b1 : l - m ≤ 170 := fct_lt.1 (k1 (one _) (one _) h1)
  have b2 : l + m ≤ 170 := fct_lt.1 (k1 (one _) (one _) (by rw [mul_comm]; exact h1))
  have b3 : l - n ≤ 170 := fct_lt.1 (k1 (one _) (one _) h2)
  have b4 : l + n ≤ 170 := fct_lt.1 (k1 (one _) (one _) (by rw [mul_comm]; exact h2))
  set P1 := fct (l - m) * fct (l + m) with hP1
  set P2 := fct (l - n) * fct (l + n) with hP2
  have P1one : 1 ≤ P1 := w (one _) (one _)
  have P2one : 1 ≤ P2 := w (one _) (one _)
  set kmin := max (m - n) 0
  set kmax := min (l + m) (l - n)
  have key : ∀ k ∈ irange kmin kmax, ∃ t,
      div (div (rnd (dTerm l m n beta k)) (mul (factorial k) (factorial (l + m - k)))) (mul (factorial (l - n - k)) (factorial (n - m + k))) = .fin t ∧
      |t - dTerm l m n beta k / (fct k * fct (l + m - k)) / (fct (l - n - k) * fct (n - m + k))| ≤ 3 * UNDER ∧
      |t| ≤ min 1 (2 ^ 340 / (Real.sqrt P1 * Real.sqrt P2)) := by
    intro k hk
    rw [mem_irange] at hk
    have c1 : fct k * fct (l + m - k) < OVER :=
      lt_of_le_of_lt (fct_mul_le (by omega) (by omega)) (by rw [show k + (l + m - k) = l + m by ring]; exact fct_lt.2 b2)
    have c2 : fct (l - n - k) * fct (n - m + k) < OVER :=
      lt_of_le_of_lt (fct_mul_le (by omega) (by omega)) (by rw [show l - n - k + (n - m + k) = l - m by ring]; exact fct_lt.2 b1)
    rw [mul_factorial (by omega) (by omega) c1, mul_factorial (by omega) (by omega) c2]
    obtain ⟨t, ht, e, b⟩ := term_near (dTerm_le (l := l) (m := m) (n := n) beta (k := k) (by omega) (by omega) (by omega) (by omega))
      (w (one k) (one (l + m - k))) (w (one (l - n - k)) (one (n - m + k)))
    refine ⟨t, ht, e, b.trans (le_min ?_ ?_)⟩
    · exact (div_le_one (by have := w (w (one k) (one (l + m - k))) (w (one (l - n - k)) (one (n - m + k))); linarith)).2
        (w (w (one k) (one (l + m - k))) (w (one (l - n - k)) (one (n - m + k))))
    · have hD : 0 < fct k * fct (l + m - k) * (fct (l - n - k) * fct (n - m + k)) := by
        have := w (w (one k) (one (l + m - k))) (w (one (l - n - k)) (one (n - m + k))); linarith
      have q : ∀ {a b : ℤ}, 0 ≤ a → 0 ≤ b → a + b ≤ 170 → fct (a + b) ≤ 2 ^ 170 * (fct a * fct b) := fun {a b} ha hb hab =>
        (fct_le_pow ha hb).trans (mul_le_mul_of_nonneg_right (pow_le_pow_right₀ one_le_two (by omega)) (mul_nonneg (pos _).le (pos _).le))
      have g1 := q (a := k) (b := l + m - k) (by omega) (by omega) (by omega)
      have g2 := q (a := l - n - k) (b := n - m + k) (by omega) (by omega) (by omega)
      have g3 := q (a := k) (b := l - n - k) (by omega) (by omega) (by omega)
      have g4 := q (a := l + m - k) (b := n - m + k) (by omega) (by omega) (by omega)
      rw [show k + (l + m - k) = l + m by ring] at g1
      rw [show l - n - k + (n - m + k) = l - m by ring] at g2
      rw [show k + (l - n - k) = l - n by ring] at g3
      rw [show l + m - k + (n - m + k) = l + n by ring] at g4
      have hq : (2 : ℝ) ^ 340 = 2 ^ 170 * 2 ^ 170 := by rw [← pow_add]
      rw [hq]
      generalize (2 : ℝ) ^ 170 = Q at *
      have hQ : 0 < Q := by
        by_contra hc
        have := mul_nonpos_of_nonpos_of_nonneg (not_lt.1 hc) (mul_nonneg (pos k).le (pos (l + m - k)).le)
        linarith [pos (l + m)]
      have i1 : P1 ≤ Q * Q * (fct k * fct (l + m - k) * (fct (l - n - k) * fct (n - m + k))) := by
        refine (mul_le_mul g2 g1 (pos _).le (mul_nonneg hQ.le (mul_nonneg (pos _).le (pos _).le))).trans (le_of_eq (by ring))
      have i2 : P2 ≤ Q * Q * (fct k * fct (l + m - k) * (fct (l - n - k) * fct (n - m + k))) := by
        refine (mul_le_mul g3 g4 (pos _).le (mul_nonneg hQ.le (mul_nonneg (pos _).le (pos _).le))).trans (le_of_eq (by ring))
      have i3 : Real.sqrt P1 * Real.sqrt P2 ≤ Q * Q * (fct k * fct (l + m - k) * (fct (l - n - k) * fct (n - m + k))) := by
        have hR : 0 ≤ Q * Q * (fct k * fct (l + m - k) * (fct (l - n - k) * fct (n - m + k))) := by linarith
        rw [← Real.sqrt_mul (by linarith), ← Real.sqrt_sq hR, pow_two]
        exact Real.sqrt_le_sqrt (mul_le_mul i1 i2 (by linarith) hR)
      have hs : 0 < Real.sqrt P1 * Real.sqrt P2 := mul_pos (Real.sqrt_pos.2 (by linarith)) (Real.sqrt_pos.2 (by linarith))
      rw [div_le_div_iff₀ hD hs, one_mul]
      exact i3
  set B := min 1 (2 ^ 340 / (Real.sqrt P1 * Real.sqrt P2)) with hB
  have hs1 : 0 < Real.sqrt P1 := Real.sqrt_pos.2 (by linarith)
  have hs2 : 0 < Real.sqrt P2 := Real.sqrt_pos.2 (by linarith)
  have hB0 : 0 < B := lt_min one_pos (div_pos (by positivity) (mul_pos hs1 hs2))
  have hB1 : B ≤ 1 := min_le_left _ _
  have hB2 : B * Real.sqrt P1 * Real.sqrt P2 ≤ 2 ^ 340 := by
    have := min_le_right 1 ((2 : ℝ) ^ 340 / (Real.sqrt P1 * Real.sqrt P2))
    rw [← hB, le_div_iff₀ (mul_pos hs1 hs2)] at this
    rw [mul_assoc]; exact this
  have sq : ∀ P : ℝ, P < OVER → Real.sqrt P ≤ 2 ^ 512 := fun P hP => by
    refine Real.sqrt_le_iff.2 ⟨by positivity, hP.le.trans (OVER_lt.le.trans (le_of_eq ?_))⟩
    rw [← pow_mul]
  have o : ∀ n : ℕ, n ≤ 1022 → (2 : ℝ) ^ n < OVER := fun n hn => (two_pow_lt (by omega)).trans_le le_OVER
  have hlen : ((irange kmin kmax).length : ℝ) ≤ 171 := by
    rw [irange_length]
    have : (kmax + 1 - kmin).toNat ≤ 171 := by omega
    exact_mod_cast this
  have hbs : ((irange kmin kmax).map fun _ : ℤ => B).sum ≤ 171 * B := by
    rw [List.map_const', List.sum_replicate, nsmul_eq_mul]
    exact mul_le_mul_of_nonneg_right hlen hB0.le
  obtain ⟨S, hS, eS, bS⟩ := sum_near (irange kmin kmax) _ (fun k => dTerm l m n beta k / (fct k * fct (l + m - k)) / (fct (l - n - k) * fct (n - m + k)))
    (fun _ => B) (3 * UNDER) key (by
      refine hbs.trans_lt (lt_of_le_of_lt ?_ (o 10 (by norm_num)))
      linarith)
  rw [irange_sum] at eS
  set s := ∑ k ∈ Finset.Icc kmin kmax, dTerm l m n beta k / (fct k * fct (l + m - k)) / (fct (l - n - k) * fct (n - m + k)) with hsdef
  have bS' : |S| ≤ 171 * B := bS.trans hbs
  have eS' : |S - s| ≤ 513 * UNDER := eS.trans (by
    have := mul_le_mul_of_nonneg_right hlen (mul_nonneg (by norm_num : (0 : ℝ) ≤ 3) UNDER_pos.le)
    linarith)
  have sgn : |(-1 : ℝ) ^ (n - m)| = 1 := by rw [abs_zpow, abs_neg, abs_one, one_zpow]
  have a1 : |S * (-1) ^ (n - m)| ≤ 171 * B := by rw [abs_mul, sgn, mul_one]; exact bS'
  obtain ⟨S1, hS1, eS1, bS1⟩ := rnd_near (lt_of_le_of_lt (a1.trans (by linarith : 171 * B ≤ 2 ^ 10)) (o 10 (by norm_num)))
  have a2 : |S1 * Real.sqrt P1| ≤ 171 * B * Real.sqrt P1 := by
    rw [abs_mul, abs_of_pos hs1]; exact mul_le_mul_of_nonneg_right (bS1.trans a1) hs1.le
  have hbig : 171 * B * Real.sqrt P1 ≤ 2 ^ 8 * 2 ^ 512 :=
    mul_le_mul (by linarith : 171 * B ≤ 2 ^ 8) (sq P1 h1) hs1.le (by positivity)
  obtain ⟨S2, hS2, eS2, bS2⟩ := rnd_near (lt_of_le_of_lt (a2.trans hbig) (by rw [← pow_add]; exact o _ (by norm_num)))
  have a3 : |S2 * Real.sqrt P2| ≤ 171 * 2 ^ 340 := by
    rw [abs_mul, abs_of_pos hs2]
    refine (mul_le_mul_of_nonneg_right (bS2.trans a2) hs2.le).trans ?_
    rw [show 171 * B * Real.sqrt P1 * Real.sqrt P2 = 171 * (B * Real.sqrt P1 * Real.sqrt P2) by ring]
    exact mul_le_mul_of_nonneg_left hB2 (by norm_num)
  obtain ⟨S3, hS3, eS3, bS3⟩ := rnd_near (lt_of_le_of_lt (a3.trans (mul_le_mul_of_nonneg_right (by norm_num : (171 : ℝ) ≤ 2 ^ 8) (by positivity)))
    (by rw [← pow_add]; exact o _ (by norm_num)))
  refine ⟨S3, ?_, ?_⟩
  · rw [Dlmn]
    dsimp only
    have hS' : sum ((irange kmin kmax).map fun k : ℤ =>
      div (div (rnd ((-1) ^ k * Real.cos (beta / 2) ^ (2 * l + m - n - 2 * k) * Real.sin (beta / 2) ^ (n - m + 2 * k)))
        (mul (factorial k) (factorial (l + m - k)))) (mul (factorial (l - n - k)) (factorial (n - m + k)))) = .fin S := hS
    rw [hS', mul, hS1, mul_factorial (by omega) (by omega) h1, sqrt_fin (by linarith), mul, hS2,
      mul_factorial (by omega) (by omega) h2, sqrt_fin (by linarith), mul, hS3]
  · have x1 : |S1 - s * (-1) ^ (n - m)| ≤ 514 * UNDER := by
      have : |S * (-1) ^ (n - m) - s * (-1) ^ (n - m)| ≤ 513 * UNDER := by rw [← sub_mul, abs_mul, sgn, mul_one]; exact eS'
      have := abs_sub_le S1 (S * (-1) ^ (n - m)) (s * (-1) ^ (n - m)); linarith
    have x2 : |S2 - s * (-1) ^ (n - m) * Real.sqrt P1| ≤ 514 * UNDER * 2 ^ 512 + UNDER := by
      have h : |S1 * Real.sqrt P1 - s * (-1) ^ (n - m) * Real.sqrt P1| ≤ 514 * UNDER * 2 ^ 512 := by
        rw [← sub_mul, abs_mul, abs_of_pos hs1]
        exact mul_le_mul x1 (sq P1 h1) hs1.le (mul_nonneg (by norm_num) UNDER_pos.le)
      have := abs_sub_le S2 (S1 * Real.sqrt P1) (s * (-1) ^ (n - m) * Real.sqrt P1); linarith
    have x3 : |S3 - s * (-1) ^ (n - m) * Real.sqrt P1 * Real.sqrt P2| ≤ (514 * UNDER * 2 ^ 512 + UNDER) * 2 ^ 512 + UNDER := by
      have h : |S2 * Real.sqrt P2 - s * (-1) ^ (n - m) * Real.sqrt P1 * Real.sqrt P2| ≤ (514 * UNDER * 2 ^ 512 + UNDER) * 2 ^ 512 := by
        rw [← sub_mul, abs_mul, abs_of_pos hs2]
        exact mul_le_mul x2 (sq P2 h2) hs2.le ((abs_nonneg _).trans x2)
      have := abs_sub_le S3 (S2 * Real.sqrt P2) (s * (-1) ^ (n - m) * Real.sqrt P1 * Real.sqrt P2); linarith
    refine x3.trans ?_
    have hU : UNDER * (2 ^ 512 * 2 ^ 512) = 1 / 2 ^ 51 := by
      rw [UNDER, ← pow_add, one_div_mul_eq_div, show 1075 = (512 + 512) + 51 by norm_num, pow_add _ (512 + 512) 51,
        ← div_div, div_self (by positivity)]
    have hone : (1 : ℝ) ≤ 2 ^ 512 := one_le_pow₀ one_le_two
    have hU0 := UNDER_pos
    generalize (2 : ℝ) ^ 512 = Z at *
    have y1 : UNDER * Z ≤ UNDER * (Z * Z) := mul_le_mul_of_nonneg_left (by nlinarith) hU0.le
    have y2 : UNDER ≤ UNDER * (Z * Z) := le_mul_of_one_le_right hU0.le (by nlinarith)
    have y3 : (514 * UNDER * Z + UNDER) * Z + UNDER = 514 * (UNDER * (Z * Z)) + UNDER * Z + UNDER := by ring
    rw [y3]
    rw [hU] at y1 y2 ⊢
    have : (516 : ℝ) * (1 / 2 ^ 51) ≤ 1 / 2 ^ 40 := by norm_num
    linarith

theorem fct_two_mul (n : ℕ) : fct (2 * n + 1) = (2 * n + 1) * fct (n + n) := by
  rw [show (2 * n + 1 : ℤ) = ((2 * n + 1 : ℕ) : ℤ) by push_cast; ring, show (n + n : ℤ) = ((2 * n : ℕ) : ℤ) by push_cast; ring,
    fct, fct, Int.toNat_natCast, Int.toNat_natCast, Nat.factorial_succ]
  push_cast; ring

theorem rnd_one_le {x : ℝ} (h : 1 ≤ x) : rnd x = if x < OVER then .fin x else .inf false := by
  split_ifs with h1
  · exact rnd_fin (by rwa [abs_of_nonneg (by linarith)]) (by rw [abs_of_nonneg (by linarith)]; exact UNDER_lt_one.trans_le h)
  · exact rnd_over (not_lt.1 h1)

theorem factorial_rnd {n : ℤ} (h : 0 ≤ n) : factorial n = rnd (fct n) := by rw [factorial, spFactorial_eq h]

theorem mul_rnd {x y : ℝ} (hx : 1 ≤ x) (hy : 1 ≤ y) : mul (.fin x) (rnd y) = rnd (x * y) := by
  rw [rnd_one_le hy]
  split_ifs with h
  · rfl
  · rw [rnd_over ((not_lt.1 h).trans (le_mul_of_one_le_left (by linarith) hx)), mul, if_neg (by linarith), decide_eq_false (by linarith)]
    rfl

theorem rnd_mul_rnd {x y : ℝ} (hx : 1 ≤ x) (hy : 1 ≤ y) : mul (rnd x) (rnd y) = rnd (x * y) := by
  by_cases h : x < OVER
  · rw [rnd_one_le hx, if_pos h, mul_rnd hx hy]
  · rw [rnd_one_le hx, if_neg h, rnd_one_le hy, rnd_over ((not_lt.1 h).trans (le_mul_of_one_le_right (by linarith) hy))]
    split_ifs with h1
    · rw [mul, if_neg (by linarith), decide_eq_false (by linarith)]; rfl
    · rfl

/-- A number times its own inverse. -/
theorem mul_inv_self {a : ℝ} (h1 : UNDER < |a|) (h2 : |a| < OVER) (h3 : UNDER < 1 / |a|) (h4 : 1 / |a| < OVER) :
    mul (.fin 1) (mul (div (.fin 1) (.fin a)) (.fin a)) = .fin 1 := by
  have ha : a ≠ 0 := by
    rintro rfl
    rw [abs_zero] at h1
    linarith [UNDER_pos]
  have e : |1 / a| = 1 / |a| := by rw [abs_div, abs_one]
  have r1 : rnd 1 = .fin 1 := by rw [rnd_one_le le_rfl, if_pos one_lt_OVER]
  rw [div_fin ha, rnd_fin (by rwa [e]) (by rwa [e]), mul, one_div_mul_cancel ha, r1, mul, mul_one, r1]

theorem diagRR_eq {n m : ℤ} (h0 : 0 ≤ n) (h1 : 0 ≤ n - m) (h2 : 0 ≤ n + m) :
    diagRR n m = if (2 * n + 1) * fct (n - m) * fct (n + m) < OVER then .fin 1 else .nan := by
  have one := one_le_fct
  have hn : (1 : ℝ) ≤ 2 * n + 1 := by
    have : (0 : ℝ) ≤ n := by exact_mod_cast h0
    linarith
  have hD1 : 1 ≤ (2 * n + 1) * fct (n - m) := one_le_mul_of_one_le_of_one_le hn (one _)
  have hD : 1 ≤ (2 * n + 1) * fct (n - m) * fct (n + m) := one_le_mul_of_one_le_of_one_le hD1 (one _)
  rw [diagRR, alphanm, factorial_rnd h1, factorial_rnd h2, mul_rnd hn (one _), rnd_mul_rnd hD1 (one _), rnd_one_le hD]
  generalize (2 * n + 1) * fct (n - m) * fct (n + m) = D at hD
  split_ifs with h
  · have p : 0 < D := by linarith
    have hu := inv_fct_under p h
    have hi : 1 / D ≤ 1 := (div_le_one p).2 hD
    have hi0 : 0 < 1 / D := by positivity
    have hs0 : 1 / D ≤ Real.sqrt (1 / D) := by
      refine Real.le_sqrt_of_sq_le ?_
      rw [pow_two]; exact mul_le_of_le_one_left hi0.le hi
    have hs1 : Real.sqrt (1 / D) ≤ 1 := Real.sqrt_le_one.2 hi
    have ea : |(-1 : ℝ) ^ n * Real.sqrt (1 / D)| = Real.sqrt (1 / D) := by
      rw [abs_mul, abs_zpow, abs_neg, abs_one, one_zpow, one_mul, abs_of_nonneg (Real.sqrt_nonneg _)]
    have hsp : 0 < Real.sqrt (1 / D) := hi0.trans_le hs0
    rw [div_fin p.ne', rnd_fin (by rw [abs_of_pos hi0]; exact hi.trans_lt one_lt_OVER) (by rwa [abs_of_pos hi0]), sqrt_fin hi0.le, mul,
      rnd_fin (by rw [ea]; exact hs1.trans_lt one_lt_OVER) (by rw [ea]; exact hu.trans_le hs0)]
    refine mul_inv_self ?_ ?_ ?_ ?_ <;> rw [ea]
    · exact hu.trans_le hs0
    · exact hs1.trans_lt one_lt_OVER
    · exact UNDER_lt_one.trans_le ((one_le_div hsp).2 hs1)
    · refine lt_of_le_of_lt ?_ h
      rw [div_le_iff₀ hsp]
      calc (1 : ℝ) = D * (1 / D) := by field_simp
        _ ≤ _ := mul_le_mul_of_nonneg_left hs0 p.le
  · have s0 : sqrt (.fin 0) = .fin 0 := by rw [sqrt_fin le_rfl, Real.sqrt_zero]
    rw [div, s0, mul, mul_zero, rnd_zero, div, if_pos rfl, if_neg one_ne_zero, mul, if_pos rfl]
    rfl

theorem diagSS_eq {n m : ℤ} (h0 : 0 ≤ n) (h1 : 0 ≤ n - m) (h2 : 0 ≤ n + m) :
    diagSS n m = if fct (n - m) * fct (n + m) < OVER then .fin 1 else .nan := by
  have one := one_le_fct
  have hn : (1 : ℝ) ≤ 2 * n + 1 := by
    have : (0 : ℝ) ≤ n := by exact_mod_cast h0
    linarith
  have hD : 1 ≤ fct (n - m) * fct (n + m) := one_le_mul_of_one_le_of_one_le (one _) (one _)
  have hF : fct (n - m) * fct (n + m) < OVER → n ≤ 170 := by
    intro h
    have h3 : fct (n - m) < OVER := lt_of_le_of_lt (le_mul_of_one_le_right (fct_pos _).le (one _)) h
    have h4 : fct (n + m) < OVER := lt_of_le_of_lt (le_mul_of_one_le_left (fct_pos _).le (one _)) h
    rw [fct_lt] at h3 h4
    omega
  rw [diagSS, betanm, factorial_rnd h1, factorial_rnd h2, rnd_mul_rnd (one _) (one _), rnd_one_le hD]
  generalize fct (n - m) * fct (n + m) = F at hD hF
  split_ifs with h
  · have p : 0 < F := by linarith
    have q : (0 : ℝ) < 2 * n + 1 := by linarith
    have hn2 : (2 * n + 1 : ℝ) ≤ 341 := by
      have : (n : ℝ) ≤ 170 := by exact_mod_cast hF h
      linarith
    have h341 : (341 : ℝ) < OVER := by
      have := nat_lt_OVER (n := 341) (by decide +kernel)
      exact_mod_cast this
    have hu : UNDER < 1 / 341 := inv_fct_under (by norm_num) h341
    have hx0 : 1 / 341 ≤ F / (2 * n + 1) := div_le_div₀ p.le hD q hn2
    have hx1 : F / (2 * n + 1) ≤ F := div_le_self p.le hn
    have hxp : 0 < F / (2 * n + 1) := by positivity
    rw [div_fin q.ne', rnd_fin (by rw [abs_of_pos hxp]; exact hx1.trans_lt h) (by rw [abs_of_pos hxp]; exact hu.trans_le hx0),
      sqrt_fin hxp.le]
    generalize F / (2 * n + 1) = x at hx0 hx1 hxp
    have hsp := Real.sqrt_pos.2 hxp
    have hsF : Real.sqrt x ≤ F := by
      refine Real.sqrt_le_iff.2 ⟨p.le, hx1.trans ?_⟩
      nlinarith
    have hs0 : 1 / 341 ≤ Real.sqrt x := by
      refine Real.le_sqrt_of_sq_le (le_trans ?_ hx0)
      norm_num
    refine mul_inv_self ?_ ?_ ?_ ?_ <;> rw [abs_of_pos hsp]
    · exact hu.trans_le hs0
    · exact hsF.trans_lt h
    · exact inv_fct_under hsp (hsF.trans_lt h)
    · refine lt_of_le_of_lt ?_ h341
      rw [div_le_iff₀ hsp]
      linarith
  · rw [div, decide_eq_false (by linarith)]
    show mul (.fin 1) (mul (div (.fin 1) (.inf false)) (.inf false)) = _
    rw [div, mul, if_pos rfl]
    rfl

end Newt.Rng
