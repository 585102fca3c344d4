import Verif.Proofs.BodyEnergy

/-! # The two-centre expansion of the inverse distance and its truncation error -/

namespace Newt

open Spec MeasureTheory

/-- The term of degrees `l`, `k` of the two-centre expansion. -/
noncomputable def bipT (d : V3) (l k : ℕ) (x y : V3) : ℂ :=
  ∑ m ∈ Finset.Icc (-(l : ℤ)) l, ∑ n ∈ Finset.Icc (-(k : ℤ)) k,
    (-1) ^ k * fO (l + k) (m + n) d * (Rsol l m x * Rsol k n y)

theorem bip_diag (d x y : V3) (N : ℕ) :
    (-1) ^ N * tayl 0 0 (y - x) N d = ∑ k ∈ Finset.range (N + 1), bipT d (N - k) k x y := by
  rw [tayl, Finset.mul_sum]
  have e : ∀ nu ∈ Finset.Icc (-(N : ℤ)) N, (-1) ^ N * (fO (0 + N) (0 + nu) d * Rsol N nu (y - x)) =
      ∑ k ∈ Finset.range (N + 1), ∑ n ∈ Finset.Icc (-(k : ℤ)) k,
        (-1) ^ k * fO N nu d * (Rsol (N - k) (nu - n) x * Rsol k n y) := by
    intro nu _
    rw [zero_add, zero_add, sub_eq_add_neg, Rsol_add, Finset.mul_sum, Finset.mul_sum]
    refine Finset.sum_congr rfl fun k hk => ?_
    rw [Finset.mem_range] at hk
    rw [Finset.mul_sum, Finset.mul_sum]
    refine Finset.sum_congr rfl fun n _ => ?_
    rw [Rsol_neg_arg]
    have : ((-1 : ℂ)) ^ N * (-1) ^ (N - k) = (-1) ^ k := by
      rw [← pow_add, show N + (N - k) = k + 2 * (N - k) by omega, pow_add, pow_mul]; simp
    linear_combination (fO N nu d * (Rsol (N - k) (nu - n) x * Rsol k n y)) * this
  rw [Finset.sum_congr rfl e, Finset.sum_comm]
  refine Finset.sum_congr rfl fun k hk => ?_
  rw [Finset.mem_range] at hk
  rw [bipT, Finset.sum_comm, Finset.sum_comm (s := Finset.Icc (-((N - k : ℕ) : ℤ)) _)]
  refine Finset.sum_congr rfl fun n hn => ?_
  rw [Finset.mem_Icc] at hn
  symm
  refine Finset.sum_of_injOn (fun m : ℤ => m + n) (fun _ _ _ _ h => by simpa using h) ?_ ?_ ?_
  · intro m hm
    simp only [Finset.coe_Icc, Set.mem_Icc] at hm ⊢
    omega
  · intro nu hnu hnot
    rw [Rsol_out' (N - k) (nu - n), zero_mul, mul_zero]
    by_contra hc
    apply hnot
    refine ⟨nu - n, ?_, by ring⟩
    simp only [Finset.coe_Icc, Set.mem_Icc]
    omega
  · intro m hm
    rw [add_sub_cancel_right, show N - k + k = N by omega]

theorem sum_triangle (F : ℕ → ℕ → ℂ) (L : ℕ) :
    ∑ N ∈ Finset.range (L + 1), ∑ k ∈ Finset.range (N + 1), F (N - k) k =
      ∑ l ∈ Finset.range (L + 1), ∑ k ∈ Finset.range (L + 1), if l + k ≤ L then F l k else 0 := by
  rw [← Finset.sum_product', ← Finset.sum_filter, Finset.sum_sigma']
  refine Finset.sum_bij' (fun p _ => (p.1 - p.2, p.2)) (fun p _ => ⟨p.1 + p.2, p.2⟩) ?_ ?_ ?_ ?_ ?_
  · rintro ⟨N, k⟩ h
    simp only [Finset.mem_sigma, Finset.mem_range] at h
    simp only [Finset.mem_filter, Finset.mem_product, Finset.mem_range]
    omega
  · rintro ⟨l, k⟩ h
    simp only [Finset.mem_filter, Finset.mem_product, Finset.mem_range] at h
    simp only [Finset.mem_sigma, Finset.mem_range]
    omega
  · rintro ⟨N, k⟩ h
    simp only [Finset.mem_sigma, Finset.mem_range] at h
    simp only [Sigma.mk.injEq, heq_eq_eq, and_true]
    omega
  · rintro ⟨l, k⟩ h
    simp
  · rintro ⟨N, k⟩ h
    rfl

theorem choose_pow_le (p i : ℕ) (h : i ≤ p) (a c : ℝ) (ha : 0 ≤ a) (hc : 0 ≤ c) :
    (p.choose i : ℝ) * (a ^ i * c ^ (p - i)) ≤ (a + c) ^ p := by
  rw [add_pow]
  have := Finset.single_le_sum (f := fun m => a ^ m * c ^ (p - m) * (p.choose m : ℝ)) (s := Finset.range (p + 1))
    (fun m _ => by positivity) (Finset.mem_range.2 (by omega : i < p + 1))
  refine le_trans (le_of_eq ?_) this
  ring

theorem fact_choose (i j : ℕ) : ((i + j).factorial : ℝ) = ((i + j).choose i : ℝ) * (i.factorial * j.factorial) := by
  have := Nat.add_choose_mul_factorial_mul_factorial i j
  rw [Nat.choose_symm_add] at *
  rw [← this]; push_cast; ring

theorem Nlm_bip (l k : ℕ) (m n : ℤ) (hm : m.natAbs ≤ l) (hn : n.natAbs ≤ k) (a c : ℝ) (ha : 0 ≤ a) (hc : 0 ≤ c) :
    Nlm (l + k) (m + n) * (a ^ l * c ^ k) ≤ 4 * (2 * (l + k) + 1) * (a + c) ^ (l + k) * (Nlm l m * Nlm k n) := by
  have hp := Real.pi_pos
  have hNl := Nlm_pos l m
  have hNk := Nlm_pos k n
  apply le_of_sq_le_sq _ (by positivity)
  obtain ⟨i, hi⟩ : ∃ i : ℕ, (l + m) = i := ⟨(l + m).toNat, by omega⟩
  obtain ⟨j, hj⟩ : ∃ j : ℕ, (l - m) = j := ⟨(l - m).toNat, by omega⟩
  obtain ⟨u, hu⟩ : ∃ u : ℕ, (k + n) = u := ⟨(k + n).toNat, by omega⟩
  obtain ⟨w, hw⟩ : ∃ w : ℕ, (k - n) = w := ⟨(k - n).toNat, by omega⟩
  have e1 : (Nlm (l + k) (m + n)) ^ 2 = (2 * (l + k) + 1) / (4 * Real.pi) * ((i + u).factorial * (j + w).factorial) := by
    rw [Nlm, Real.sq_sqrt (by positivity), show (((l + k : ℕ) : ℤ) + (m + n)).toNat = i + u by omega,
      show (((l + k : ℕ) : ℤ) - (m + n)).toNat = j + w by omega]
    push_cast; ring
  have e2 : (Nlm l m) ^ 2 = (2 * l + 1) / (4 * Real.pi) * (i.factorial * j.factorial) := by
    rw [Nlm, Real.sq_sqrt (by positivity), hi, hj]; simp
  have e3 : (Nlm k n) ^ 2 = (2 * k + 1) / (4 * Real.pi) * (u.factorial * w.factorial) := by
    rw [Nlm, Real.sq_sqrt (by positivity), hu, hw]; simp
  have c1 := choose_pow_le (i + u) i (by omega) a c ha hc
  have c2 := choose_pow_le (j + w) j (by omega) a c ha hc
  rw [Nat.add_sub_cancel_left] at c1 c2
  have c3 := mul_le_mul c1 c2 (by positivity) (by positivity)
  have hij : i + j = 2 * l := by omega
  have huw : u + w = 2 * k := by omega
  have p1 : a ^ i * a ^ j = (a ^ l) ^ 2 := by rw [← pow_add, hij, mul_comm, pow_mul]
  have p2 : c ^ u * c ^ w = (c ^ k) ^ 2 := by rw [← pow_add, huw, mul_comm, pow_mul]
  have p3 : (a + c) ^ (i + u) * (a + c) ^ (j + w) = ((a + c) ^ (l + k)) ^ 2 := by
    rw [← pow_add, show i + u + (j + w) = 2 * (l + k) by omega, mul_comm, pow_mul]
  rw [p3] at c3
  have c4 : ((i + u).choose i : ℝ) * ((j + w).choose j : ℝ) * ((a ^ l) ^ 2 * (c ^ k) ^ 2) ≤ ((a + c) ^ (l + k)) ^ 2 := by
    rw [← p1, ← p2]
    refine le_trans (le_of_eq ?_) c3
    ring
  rw [mul_pow, mul_pow (4 * (2 * ((l : ℝ) + k) + 1) * (a + c) ^ (l + k)), mul_pow (Nlm l m), e1, e2, e3, mul_pow (a ^ l),
    fact_choose i u, fact_choose j w, mul_pow (4 * (2 * ((l : ℝ) + k) + 1))]
  set t : ℝ := 2 * ((l : ℝ) + k) + 1 with ht
  have ht1 : 1 ≤ t := by
    have : (0 : ℝ) ≤ (l : ℝ) + k := by positivity
    linarith
  set W : ℝ := ((i.factorial : ℝ) * j.factorial) * ((u.factorial : ℝ) * w.factorial) with hW
  have hW0 : 0 ≤ W := by positivity
  calc t / (4 * Real.pi) * (((i + u).choose i : ℝ) * (i.factorial * u.factorial) *
        (((j + w).choose j : ℝ) * (j.factorial * w.factorial))) * ((a ^ l) ^ 2 * (c ^ k) ^ 2)
      = t / (4 * Real.pi) * W * (((i + u).choose i : ℝ) * ((j + w).choose j : ℝ) * ((a ^ l) ^ 2 * (c ^ k) ^ 2)) := by
        rw [hW]; ring
    _ ≤ t / (4 * Real.pi) * W * ((a + c) ^ (l + k)) ^ 2 := by gcongr
    _ ≤ (4 * t) ^ 2 * ((2 * l + 1) * (2 * k + 1)) / (4 * Real.pi) ^ 2 * W * ((a + c) ^ (l + k)) ^ 2 := by
        refine mul_le_mul_of_nonneg_right (mul_le_mul_of_nonneg_right ?_ hW0) (by positivity)
        rw [div_le_div_iff₀ (by positivity) (by positivity)]
        have hpi : Real.pi ≤ 4 := Real.pi_le_four
        have hlk : (1 : ℝ) ≤ (2 * l + 1) * (2 * k + 1) := by
          have h1 : (0 : ℝ) ≤ l := Nat.cast_nonneg l
          have h2 : (0 : ℝ) ≤ k := Nat.cast_nonneg k
          nlinarith [mul_nonneg h1 h2]
        calc t * (4 * Real.pi) ^ 2 = (16 * t * Real.pi) * Real.pi := by ring
          _ ≤ (16 * t * Real.pi) * 4 := by gcongr
          _ = 16 * t * 1 * 1 * (4 * Real.pi) := by ring
          _ ≤ 16 * t * t * ((2 * l + 1) * (2 * k + 1)) * (4 * Real.pi) := by gcongr
          _ = _ := by ring
    _ = _ := by rw [hW]; ring

theorem norm_Rsol_le (l : ℕ) (m : ℤ) (x : V3) : ‖Rsol l m x‖ ≤ (2 * l + 1) * modulus x ^ l / Nlm l m := by
  have h2 := norm_solidS_le l m x
  have hN := Nlm_pos l m
  rw [solidS, norm_mul, Complex.norm_real, Real.norm_eq_abs, abs_of_pos hN] at h2
  rw [le_div_iff₀ hN, mul_comm]
  exact h2

theorem norm_bipT_le (d x y : V3) (hd : d ≠ 0) (a c : ℝ) (hx : modulus x ≤ a) (hy : modulus y ≤ c) (l k : ℕ) :
    ‖bipT d l k x y‖ ≤ (2 * l + 1) ^ 2 * (2 * k + 1) ^ 2 * (4 * (2 * (l + k) + 1)) *
      ((a + c) ^ (l + k) / modulus d ^ (l + k + 1)) := by
  have hx0 := modulus_nonneg x
  have hy0 := modulus_nonneg y
  have ha : 0 ≤ a := hx0.trans hx
  have hc : 0 ≤ c := hy0.trans hy
  have hD := modulus_pos hd
  have ht : ∀ m ∈ Finset.Icc (-(l : ℤ)) l, ∀ n ∈ Finset.Icc (-(k : ℤ)) k,
      ‖(-1) ^ k * fO (l + k) (m + n) d * (Rsol l m x * Rsol k n y)‖ ≤
      (2 * l + 1) * (2 * k + 1) * (4 * (2 * (l + k) + 1)) * ((a + c) ^ (l + k) / modulus d ^ (l + k + 1)) := by
    intro m hm n hn
    rw [Finset.mem_Icc] at hm hn
    have h1 := norm_fO_le (l + k) (m + n) d hd
    have h2 := norm_Rsol_le l m x
    have h3 := norm_Rsol_le k n y
    have h4 := Nlm_bip l k m n (by omega) (by omega) a c ha hc
    have hNl := Nlm_pos l m
    have hNk := Nlm_pos k n
    have hN := Nlm_pos (l + k) (m + n)
    rw [norm_mul, norm_mul, norm_mul, norm_pow, norm_neg, norm_one, one_pow, one_mul]
    calc ‖fO (l + k) (m + n) d‖ * (‖Rsol l m x‖ * ‖Rsol k n y‖)
        ≤ Nlm (l + k) (m + n) / modulus d ^ (l + k + 1) *
          (((2 * l + 1) * a ^ l / Nlm l m) * ((2 * k + 1) * c ^ k / Nlm k n)) := by
          have h2' : ‖Rsol l m x‖ ≤ (2 * l + 1) * a ^ l / Nlm l m := h2.trans (by gcongr)
          have h3' : ‖Rsol k n y‖ ≤ (2 * k + 1) * c ^ k / Nlm k n := h3.trans (by gcongr)
          gcongr
      _ = (2 * l + 1) * (2 * k + 1) / modulus d ^ (l + k + 1) / (Nlm l m * Nlm k n) *
          (Nlm (l + k) (m + n) * (a ^ l * c ^ k)) := by
          field_simp
      _ ≤ (2 * l + 1) * (2 * k + 1) / modulus d ^ (l + k + 1) / (Nlm l m * Nlm k n) *
          (4 * (2 * (l + k) + 1) * (a + c) ^ (l + k) * (Nlm l m * Nlm k n)) := by gcongr
      _ = _ := by field_simp
  rw [bipT]
  have hcard : ∀ j : ℕ, ((Finset.Icc (-(j : ℤ)) j).card : ℝ) = 2 * j + 1 := by
    intro j
    rw [Int.card_Icc, show ((j : ℤ) + 1 - -(j : ℤ)).toNat = 2 * j + 1 by omega]; push_cast; ring
  refine (norm_sum_le _ _).trans ((Finset.sum_le_sum fun m hm => (norm_sum_le _ _).trans
    (Finset.sum_le_sum (ht m hm))).trans ?_)
  rw [Finset.sum_const, Finset.sum_const, nsmul_eq_mul, nsmul_eq_mul, hcard, hcard]
  apply le_of_eq; ring

/-- The truncation error of the two-centre expansion. -/
noncomputable def bipErr (L : ℕ) (s D : ℝ) : ℝ :=
  4 * Real.pi * (remFac 0 L s D + (L + 1) ^ 2 * ((2 * L + 1) ^ 4 * (4 * (4 * L + 1))) * ((s / D) ^ (L + 1) / D))

theorem fO_zero (v : V3) : ((4 * Real.pi : ℝ) : ℂ) * fO 0 0 v = ((1 / modulus v : ℝ) : ℂ) := by
  have hp := Real.pi_ne_zero
  rw [fO, ← Complex.ofReal_pow, Nlm_zero_sq, Rsol_zero_zero]
  have : (Real.pi : ℂ) ≠ 0 := by exact_mod_cast hp
  push_cast
  simp
  field_simp

theorem bip_error (d x y : V3) (a c : ℝ) (hx : modulus x ≤ a) (hy : modulus y ≤ c) (h : a + c < modulus d) (L : ℕ) :
    ‖((4 * Real.pi : ℝ) : ℂ) * (∑ l ∈ Finset.range (L + 1), ∑ k ∈ Finset.range (L + 1), bipT d l k x y) -
      ((1 / modulus (y + d - x) : ℝ) : ℂ)‖ ≤ bipErr L (a + c) (modulus d) := by
  have hx0 := modulus_nonneg x
  have hy0 := modulus_nonneg y
  have ha : 0 ≤ a := hx0.trans hx
  have hc : 0 ≤ c := hy0.trans hy
  have hD : 0 < modulus d := by linarith
  have hd : d ≠ 0 := by
    intro h0
    rw [h0, (modulus_eq_zero 0).2 rfl] at hD
    exact lt_irrefl _ hD
  have he : modulus (y - x) ≤ a + c := by
    have := modulus_add_le y (-x)
    rw [modulus_neg, ← sub_eq_add_neg] at this
    linarith
  have herr := tayl_error 0 0 (by simp) d (y - x) (a + c) he h L
  rw [Finset.sum_congr rfl fun N _ => bip_diag d x y N, sum_triangle (fun l k => bipT d l k x y) L] at herr
  rw [show y + d - x = d + (y - x) by abel, ← fO_zero, ← mul_sub, norm_mul, Complex.norm_real, Real.norm_eq_abs,
    abs_of_pos (by have := Real.pi_pos; positivity), bipErr]
  have hp := Real.pi_pos
  refine mul_le_mul_of_nonneg_left ?_ (by positivity)
  set S1 := ∑ l ∈ Finset.range (L + 1), ∑ k ∈ Finset.range (L + 1), bipT d l k x y
  set S2 := ∑ l ∈ Finset.range (L + 1), ∑ k ∈ Finset.range (L + 1), if l + k ≤ L then bipT d l k x y else 0 with hS2
  have hrem : ‖S1 - S2‖ ≤ (L + 1) ^ 2 * ((2 * L + 1) ^ 4 * (4 * (4 * L + 1))) * (((a + c) / modulus d) ^ (L + 1) / modulus d) := by
    have e : S1 - S2 = ∑ l ∈ Finset.range (L + 1), ∑ k ∈ Finset.range (L + 1),
        if l + k ≤ L then 0 else bipT d l k x y := by
      rw [hS2, ← Finset.sum_sub_distrib]
      refine Finset.sum_congr rfl fun l _ => ?_
      rw [← Finset.sum_sub_distrib]
      refine Finset.sum_congr rfl fun k _ => ?_
      split_ifs <;> simp
    have hb : ∀ l ∈ Finset.range (L + 1), ∀ k ∈ Finset.range (L + 1),
        ‖if l + k ≤ L then (0 : ℂ) else bipT d l k x y‖ ≤
        ((2 * L + 1) ^ 4 * (4 * (4 * L + 1))) * (((a + c) / modulus d) ^ (L + 1) / modulus d) := by
      intro l hl k hk
      rw [Finset.mem_range] at hl hk
      split_ifs with hlk
      · rw [norm_zero]; positivity
      · refine (norm_bipT_le d x y hd a c hx hy l k).trans ?_
        have hl' : (l : ℝ) ≤ L := by exact_mod_cast (by omega : l ≤ L)
        have hk' : (k : ℝ) ≤ L := by exact_mod_cast (by omega : k ≤ L)
        have hr1 : (a + c) / modulus d ≤ 1 := by rw [div_le_one hD]; exact h.le
        have hr0 : 0 ≤ (a + c) / modulus d := by positivity
        have e1 : (a + c) ^ (l + k) / modulus d ^ (l + k + 1) = ((a + c) / modulus d) ^ (l + k) / modulus d := by
          rw [div_pow, pow_succ (modulus d)]; field_simp
        have e2 : ((a + c) / modulus d) ^ (l + k) ≤ ((a + c) / modulus d) ^ (L + 1) :=
          pow_le_pow_of_le_one hr0 hr1 (by omega)
        rw [e1]
        calc (2 * (l : ℝ) + 1) ^ 2 * (2 * k + 1) ^ 2 * (4 * (2 * (l + k) + 1)) * (((a + c) / modulus d) ^ (l + k) / modulus d)
            ≤ (2 * (L : ℝ) + 1) ^ 2 * (2 * L + 1) ^ 2 * (4 * (2 * (L + L) + 1)) * (((a + c) / modulus d) ^ (L + 1) / modulus d) := by
              gcongr
          _ = _ := by ring
    rw [e]
    refine (norm_sum_le _ _).trans ((Finset.sum_le_sum fun l hl => (norm_sum_le _ _).trans
      (Finset.sum_le_sum (hb l hl))).trans ?_)
    rw [Finset.sum_const, Finset.sum_const, nsmul_eq_mul, nsmul_eq_mul, Finset.card_range]
    push_cast
    apply le_of_eq; ring
  calc ‖S1 - fO 0 0 (d + (y - x))‖ = ‖(S1 - S2) + -(fO 0 0 (d + (y - x)) - S2)‖ := by congr 1; ring
    _ ≤ ‖S1 - S2‖ + ‖fO 0 0 (d + (y - x)) - S2‖ := by
      refine (norm_add_le _ _).trans ?_
      rw [norm_neg]
    _ ≤ _ := by
      rw [add_comm]
      exact add_le_add herr hrem

end Newt
