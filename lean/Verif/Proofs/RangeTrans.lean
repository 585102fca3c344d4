import Verif.Proofs.Range
import Verif.Proofs.Translations

/-! # Range of the translations with Clebsch-Gordan coefficients -/

namespace Newt.Rng

open Spec

theorem rnd_sqrt {s X F : ℝ} (hs : |s| = 1) (hF : 1 ≤ F) (hFO : F < OVER) (h1 : 1 / F ^ 2 ≤ X) (h2 : X ≤ F) :
    rnd (s * Real.sqrt X) = .fin (s * Real.sqrt X) := by
  have hF0 : 0 < F := by linarith
  have e : |s * Real.sqrt X| = Real.sqrt X := by rw [abs_mul, hs, one_mul, abs_of_nonneg (Real.sqrt_nonneg _)]
  refine rnd_fin ?_ ?_
  · rw [e]
    refine lt_of_le_of_lt (Real.sqrt_le_iff.2 ⟨hF0.le, h2.trans ?_⟩) hFO
    nlinarith
  · rw [e]
    refine (inv_fct_under hF0 hFO).trans_le (Real.le_sqrt_of_sq_le ?_)
    rwa [div_pow, one_pow]

theorem fct_split {a b c : ℤ} (ha : 0 ≤ a) (hb : 0 ≤ b) (h : a + b ≤ c) : fct a * fct b ≤ fct c :=
  (fct_mul_le ha hb).trans (fct_mono h)

theorem prodP_le {j1 j2 m1 m2 J M : ℤ} (h1 : |m1| ≤ j1) (h2 : |m2| ≤ j2) (h3 : |M| ≤ J) :
    prodP j1 j2 m1 m2 J M ≤ fct (2 * J) * fct (2 * j1) * fct (2 * j2) := by
  rw [abs_le] at h1 h2 h3
  have p := fun x => (fct_pos x).le
  rw [prodP]
  refine mul_le_mul (mul_le_mul ?_ ?_ (mul_nonneg (p _) (p _)) (p _)) ?_ (mul_nonneg (p _) (p _)) (mul_nonneg (p _) (p _))
  · exact fct_split (by omega) (by omega) (by omega)
  · exact fct_split (by omega) (by omega) (by omega)
  · exact fct_split (by omega) (by omega) (by omega)

theorem fct_nat (n : ℕ) : fct (n : ℤ) = (n.factorial : ℝ) := by rw [fct, Int.toNat_natCast]

theorem fct98 : fct 98 * fct 98 < OVER := by
  have : ((Nat.factorial 98 * Nat.factorial 98 : ℕ) : ℝ) < OVER := nat_lt_OVER (by decide +kernel)
  rwa [Nat.cast_mul] at this

theorem fct100 : OVER ≤ fct 100 * fct 100 := by
  have : OVER ≤ ((Nat.factorial 100 * Nat.factorial 100 : ℕ) : ℝ) := OVER_le_nat (by decide +kernel)
  rwa [Nat.cast_mul] at this

theorem fct104 : fct 52 * fct 52 * fct 104 < OVER := by
  have : ((Nat.factorial 52 * Nat.factorial 52 * Nat.factorial 104 : ℕ) : ℝ) < OVER := nat_lt_OVER (by decide +kernel)
  rwa [Nat.cast_mul, Nat.cast_mul] at this

theorem fct108 : OVER ≤ fct 54 * fct 54 * fct 108 := by
  have : OVER ≤ ((Nat.factorial 54 * Nat.factorial 54 * Nat.factorial 108 : ℕ) : ℝ) := OVER_le_nat (by decide +kernel)
  rwa [Nat.cast_mul, Nat.cast_mul] at this

theorem fct70 : fct 70 * fct 70 * fct 70 < OVER := by
  have : ((Nat.factorial 70 * Nat.factorial 70 * Nat.factorial 70 : ℕ) : ℝ) < OVER := nat_lt_OVER (by decide +kernel)
  rwa [Nat.cast_mul, Nat.cast_mul] at this

/-- The coefficients of `translate_qlm`. -/
theorem cg_stretched {lP l : ℕ} {mP m : ℤ} (h1 : |mP| ≤ lP) (h2 : |m| ≤ l) (hL : lP + l ≤ 49) {L : ℕ} {M : ℤ} (hLl : L = lP + l) (hM : M = mP + m) :
    val? (cgCoeff lP l mP m L M) = some (Newt.cgCoeff lP l mP m L M) := by
  have p := fun x => (fct_pos x).le
  have eL : (L : ℤ) = lP + l := by exact_mod_cast hLl
  have hv : CGValid lP l mP m L M := by
    rw [eL, hM]
    have a1 := abs_le.1 h1
    have a2 := abs_le.1 h2
    exact ⟨h1, h2, abs_le.2 ⟨by omega, by omega⟩, abs_le.2 ⟨by omega, by omega⟩, le_rfl, rfl⟩
  have hP : prodP lP l mP m L M < OVER := by
    refine (prodP_le h1 h2 hv.2.2.1).trans_lt (lt_of_le_of_lt ?_ fct98)
    rw [mul_assoc]
    exact mul_le_mul (fct_mono (by omega)) (fct_split (by omega) (by omega) (by omega)) (mul_nonneg (p _) (p _)) (p _)
  rw [(cgCoeff_range hv).1 hP, cgCoeff_valid hv, eL, hM, racah_stretched _ _ _ _ h1 h2]
  have a1 := abs_le.1 h1
  have a2 := abs_le.1 h2
  rw [← one_mul (Real.sqrt _), rnd_sqrt (F := fct 170) abs_one (one_le_fct _) fct170 ?_ ?_]
  · rfl
  · have pp := fct_pos
    have one := one_le_fct
    have d1 : fct (lP + mP) * fct (lP - mP) * (fct (l + m) * fct (l - m)) ≤ fct 170 :=
      (mul_le_mul (fct_split (c := 2 * lP) (by omega) (by omega) (by omega)) (fct_split (c := 2 * l) (by omega) (by omega) (by omega))
        (mul_nonneg (p _) (p _)) (p _)).trans (fct_split (by omega) (by omega) (by omega))
    have d0 : 0 < fct (lP + mP) * fct (lP - mP) * (fct (l + m) * fct (l - m)) := mul_pos (mul_pos (pp _) (pp _)) (mul_pos (pp _) (pp _))
    have d2 : fct (2 * (lP + l)) ≤ fct 170 := fct_mono (by omega)
    have n1 : 1 ≤ fct (2 * lP) * fct (2 * l) := one_le_mul_of_one_le_of_one_le (one _) (one _)
    have n2 : 1 ≤ fct (lP + l + (mP + m)) * fct (lP + l - (mP + m)) := one_le_mul_of_one_le_of_one_le (one _) (one _)
    rw [div_mul_div_comm, pow_two]
    exact div_le_div₀ (by linarith [one_le_mul_of_one_le_of_one_le n1 n2]) (one_le_mul_of_one_le_of_one_le n1 n2)
      (mul_pos (pp _) d0) (mul_le_mul d2 d1 d0.le (p _))
  · have pp := fct_pos
    have one := one_le_fct
    have d1 : 1 ≤ fct (lP + mP) * fct (lP - mP) * (fct (l + m) * fct (l - m)) :=
      one_le_mul_of_one_le_of_one_le (one_le_mul_of_one_le_of_one_le (one _) (one _)) (one_le_mul_of_one_le_of_one_le (one _) (one _))
    have n1 : fct (2 * lP) * fct (2 * l) ≤ fct (2 * (lP + l)) := fct_split (by omega) (by omega) (by omega)
    have n2 : fct (lP + l + (mP + m)) * fct (lP + l - (mP + m)) ≤ fct 170 := fct_split (by omega) (by omega) (by omega)
    calc _ ≤ 1 * (fct 170 / 1) := mul_le_mul ((div_le_one (pp _)).2 n1)
          (div_le_div₀ (p _) n2 one_pos d1) (div_nonneg (mul_nonneg (p _) (p _)) (by linarith)) zero_le_one
      _ = _ := by ring

/-- The coefficients of `translate_Qlmb` and `translate_q2Q`. -/
theorem cg_anti {lP l L : ℕ} {mP m M : ℤ} (h1 : |mP| ≤ lP) (h2 : |m| ≤ l) (hl : l = lP + L) (hM : M = mP + m) (h3 : |M| ≤ L)
    (hb : fct (2 * L) * fct (2 * lP) * fct (2 * l) < OVER) (hl2 : l ≤ 84) :
    val? (cgCoeff lP l mP m L M) = some (Newt.cgCoeff lP l mP m L M) := by
  have p := fun x => (fct_pos x).le
  have a1 := abs_le.1 h1
  have a2 := abs_le.1 h2
  have eL : (L : ℤ) = l - lP := by omega
  have hv : CGValid lP l mP m L M := ⟨h1, h2, h3, abs_le.2 ⟨by omega, by omega⟩, by omega, hM⟩
  have hP : prodP lP l mP m L M < OVER := (prodP_le h1 h2 h3).trans_lt hb
  rw [(cgCoeff_range hv).1 hP, cgCoeff_valid hv, eL, hM, racah_antistretched _ _ _ _ h1 h2 (by omega) (by rw [← hM, ← eL]; exact h3)]
  have a3 := abs_le.1 h3
  rw [hM] at a3
  rw [rnd_sqrt (F := fct 170) (by rw [abs_zpow, abs_neg, abs_one, one_zpow]) (one_le_fct _) fct170 ?_ ?_]
  · rfl
  · have pp := fct_pos
    have one := one_le_fct
    have d1 : fct (lP + mP) * fct (lP - mP) * (fct (l - lP + (mP + m)) * fct (l - lP - (mP + m))) ≤ fct 170 :=
      (mul_le_mul (fct_split (c := 2 * lP) (by omega) (by omega) (by omega)) (fct_split (c := 2 * L) (by omega) (by omega) (by omega))
        (mul_nonneg (p _) (p _)) (p _)).trans (fct_split (by omega) (by omega) (by omega))
    have d0 : 0 < fct (lP + mP) * fct (lP - mP) * (fct (l - lP + (mP + m)) * fct (l - lP - (mP + m))) :=
      mul_pos (mul_pos (pp _) (pp _)) (mul_pos (pp _) (pp _))
    have d2 : fct (2 * l + 1) ≤ fct 170 := fct_mono (by omega)
    have n1 : 1 ≤ fct (2 * (l - lP) + 1) * fct (2 * lP) := one_le_mul_of_one_le_of_one_le (one _) (one _)
    have n2 : 1 ≤ fct (l + m) * fct (l - m) := one_le_mul_of_one_le_of_one_le (one _) (one _)
    rw [div_mul_div_comm, pow_two]
    exact div_le_div₀ (by linarith [one_le_mul_of_one_le_of_one_le n1 n2]) (one_le_mul_of_one_le_of_one_le n1 n2)
      (mul_pos (pp _) d0) (mul_le_mul d2 d1 d0.le (p _))
  · have pp := fct_pos
    have one := one_le_fct
    have d1 : 1 ≤ fct (lP + mP) * fct (lP - mP) * (fct (l - lP + (mP + m)) * fct (l - lP - (mP + m))) :=
      one_le_mul_of_one_le_of_one_le (one_le_mul_of_one_le_of_one_le (one _) (one _)) (one_le_mul_of_one_le_of_one_le (one _) (one _))
    have n1 : fct (2 * (l - lP) + 1) * fct (2 * lP) ≤ fct (2 * l + 1) := fct_split (by omega) (by omega) (by omega)
    have n2 : fct (l + m) * fct (l - m) ≤ fct 170 := fct_split (by omega) (by omega) (by omega)
    calc _ ≤ 1 * (fct 170 / 1) := mul_le_mul ((div_le_one (pp _)).2 n1)
          (div_le_div₀ (p _) n2 one_pos d1) (div_nonneg (mul_nonneg (p _) (p _)) (by linarith)) zero_le_one
      _ = _ := by ring

theorem val_none {f : FV} (h : ¬ IsFin f) : val? f = none := by
  by_contra hc
  exact h (isFin_iff_val.2 hc)

/-- The coefficient of the highest orders. -/
theorem cg_top (L : ℕ) (hL : 50 ≤ L) : val? (cgCoeff 0 L 0 L L L) = none := by
  refine val_none ((cgCoeff_range ?_).2 ?_)
  · exact ⟨by norm_num, by rw [abs_of_nonneg (by omega)], by rw [abs_of_nonneg (by omega)], by rw [abs_le]; omega, by omega, by omega⟩
  · refine fct100.trans ?_
    rw [prodP]
    have h : fct 100 ≤ fct (L + L) := fct_mono (by omega)
    have p := fun x => (fct_pos x).le
    simp only [sub_self, sub_zero, add_zero, fct_zero, one_mul, mul_one]
    exact mul_le_mul h h (p _) (p _)

theorem cg_top_q2Q (L : ℕ) (hL : 27 ≤ L) (s : ℤ) (hs : s = 1 ∨ s = -1) :
    val? (cgCoeff (27 : ℕ) ((L + 27 : ℕ) : ℤ) (-(s * 27)) (s * L + s * 27) L (s * L)) = none := by
  refine val_none ((cgCoeff_range ?_).2 ?_)
  · rcases hs with rfl | rfl
    · exact ⟨abs_le.2 (by omega), abs_le.2 (by omega), abs_le.2 (by omega), abs_le.2 (by omega), by omega, by omega⟩
    · exact ⟨abs_le.2 (by omega), abs_le.2 (by omega), abs_le.2 (by omega), abs_le.2 (by omega), by omega, by omega⟩
  · refine fct108.trans ?_
    rw [prodP]
    have h : fct 54 ≤ fct (L + L) := fct_mono (by omega)
    have h' : fct 108 ≤ fct (2 * (L + 27)) := fct_mono (by omega)
    have p := fun x => (fct_pos x).le
    have e : fct 54 * fct 54 * fct 108 ≤ fct (L + L) * fct 54 * fct (2 * (L + 27)) :=
      mul_le_mul (mul_le_mul_of_nonneg_right h (p _)) h' (p _) (mul_nonneg (p _) (p _))
    rcases hs with rfl | rfl
    · refine e.trans (le_of_eq ?_)
      push_cast
      rw [show (L : ℤ) - 1 * L = 0 by ring, show (L : ℤ) + 27 - (1 * L + 27) = 0 by ring, show (L : ℤ) + 27 + (1 * L + 27) = 2 * (L + 27) by ring,
        show (L : ℤ) + 1 * L = L + L by ring, fct_zero]
      ring
    · refine e.trans (le_of_eq ?_)
      push_cast
      rw [show (L : ℤ) + -1 * L = 0 by ring, show (L : ℤ) + 27 + (-1 * L + -27) = 0 by ring, show (L : ℤ) + 27 - (-1 * L + -27) = 2 * (L + 27) by ring,
        show (L : ℤ) - -1 * L = L + L by ring, fct_zero]
      ring

/-! ## sums -/

theorem csum_some (l : List ℂ) : csum (l.map some) = some l.sum := by
  have : (l.map some).mapM id = some l := by
    induction l with
    | nil => rfl
    | cons a l ih => rw [List.map_cons, List.mapM_cons, ih]; rfl
  rw [csum, this]; rfl

theorem csum_none {l : List (Option ℂ)} (h : none ∈ l) : csum l = none := by
  have : l.mapM id = none := by
    induction l with
    | nil => cases h
    | cons a l ih =>
      rw [List.mapM_cons]
      rcases List.mem_cons.1 h with h | h
      · subst h; rfl
      · rw [ih h]; cases a <;> rfl
  rw [csum, this]; rfl

theorem csum_double (n : ℕ) (lo hi : ℕ → ℤ) (f : ℕ → ℤ → Option ℂ) (g : ℕ → ℤ → ℂ)
    (h : ∀ i < n, ∀ m, lo i ≤ m → m ≤ hi i → f i m = some (g i m)) :
    csum ((List.range n).flatMap fun i : ℕ => (irange (lo i) (hi i)).map (f i)) =
      some (∑ i ∈ Finset.range n, ∑ m ∈ Finset.Icc (lo i) (hi i), g i m) := by
  have e : ((List.range n).flatMap fun i : ℕ => (irange (lo i) (hi i)).map (f i)) =
      ((List.range n).flatMap fun i : ℕ => (irange (lo i) (hi i)).map (g i)).map some := by
    rw [List.map_flatMap, List.flatMap_def, List.flatMap_def]
    congr 1
    refine List.map_congr_left fun i hi' => ?_
    rw [List.map_map]
    refine List.map_congr_left fun m hm => ?_
    rw [mem_irange] at hm
    exact h i (List.mem_range.1 hi') m hm.1 hm.2
  rw [e, csum_some, List.flatMap_def, List.sum_flatten, List.map_map]
  congr 1

theorem csum_mem (n : ℕ) (lo hi : ℕ → ℤ) (f : ℕ → ℤ → Option ℂ) {i : ℕ} {m : ℤ} (hi' : i < n) (h1 : lo i ≤ m) (h2 : m ≤ hi i)
    (hf : f i m = none) : csum ((List.range n).flatMap fun i : ℕ => (irange (lo i) (hi i)).map (f i)) = none :=
  csum_none (List.mem_flatMap.2 ⟨i, List.mem_range.2 hi', List.mem_map.2 ⟨m, mem_irange.2 ⟨h1, h2⟩, hf⟩⟩)

end Newt.Rng
