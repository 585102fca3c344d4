import Verif.Model.Translations
import Verif.Proofs.ClebschGordan
import Verif.Proofs.Pg2Multi2

/-! # Closed forms of the moment translations -/

namespace Newt

open Spec

theorem Nlm_pos (l : ℕ) (m : ℤ) : 0 < Nlm l m := by
  rw [Nlm]
  apply Real.sqrt_pos.2
  have := Real.pi_pos
  positivity

theorem Nlm_ne (l : ℕ) (m : ℤ) : (Nlm l m : ℂ) ≠ 0 := by
  exact_mod_cast (Nlm_pos l m).ne'

theorem Nlm_fct (l : ℕ) (m : ℤ) :
    Nlm l m = Real.sqrt ((2 * l + 1) / (4 * Real.pi) * (fct (l + m) * fct (l - m))) := rfl

theorem inner_coef (lP l : ℕ) (mP m : ℤ) (h1 : |mP| ≤ lP) (h2 : |m| ≤ l) :
    Real.sqrt (4 * Real.pi * Real.exp (gammaln (2 * (lP + l : ℕ) + 2) - gammaln (2 * lP + 2 : ℕ)
      - gammaln (2 * l + 2))) * cgCoeff lP l mP m (lP + l : ℕ) (mP + m) * Nlm lP mP * Nlm l m
      = Nlm (lP + l) (mP + m) := by
  have ha := abs_le.1 h1
  have hb := abs_le.1 h2
  have hv : CGValid lP l mP m (lP + l : ℕ) (mP + m) := by
    refine ⟨h1, h2, abs_le.2 ⟨by omega, by omega⟩, abs_le.2 ⟨by omega, by omega⟩, by omega, rfl⟩
  rw [cgCoeff_valid hv]
  have e0 : ((lP + l : ℕ) : ℤ) = (lP : ℤ) + l := by push_cast; ring
  rw [e0, racah_stretched _ _ _ _ h1 h2, Nlm_fct, Nlm_fct, Nlm_fct]
  rw [Real.exp_sub, Real.exp_sub, exp_gammaln _ (2 * ((lP : ℤ) + l) + 1) (by omega) (by push_cast; ring),
    exp_gammaln _ (2 * (lP : ℤ) + 1) (by omega) (by push_cast; ring),
    exp_gammaln _ (2 * (l : ℤ) + 1) (by omega) (by push_cast; ring)]
  rw [fct_succ _ (by omega), fct_succ _ (by omega), fct_succ _ (by omega)]
  have hp := fct_pos
  have q1 := hp (lP + mP)
  have q2 := hp (lP - mP)
  have q3 := hp (l + m)
  have q4 := hp (l - m)
  have q5 := hp (lP + l + (mP + m))
  have q6 := hp (lP + l - (mP + m))
  have q7 := hp (2 * lP)
  have q8 := hp (2 * l)
  have q9 := hp (2 * (lP + l))
  have hpi := Real.pi_pos
  rw [← Real.sqrt_mul', ← Real.sqrt_mul', ← Real.sqrt_mul']
  · congr 1
    push_cast
    have c1 : (2 * (lP : ℝ) + 1) ≠ 0 := by positivity
    have c2 : (2 * (l : ℝ) + 1) ≠ 0 := by positivity
    have c3 : (2 * ((lP : ℝ) + l) + 1) ≠ 0 := by positivity
    field_simp
  · positivity
  · positivity
  · positivity

/-- The textbook translation of inner moments in the reduced normalisation. -/
noncomputable def trInner {L : ℕ} (q : Mom L) (d : V3) (l : ℕ) (m : ℤ) : ℂ :=
  (Nlm l m : ℂ) * ∑ k ∈ Finset.range (l + 1), ∑ n ∈ Finset.Icc (-(k : ℤ)) k,
    Rsol (l - k) (m - n) d * (q.get k n / (Nlm k n : ℂ))

theorem rPOf_eq (d : V3) : rPOf d = modulus d := rfl

theorem rPOf_eq_zero (d : V3) : rPOf d = 0 ↔ d = 0 := modulus_eq_zero d

theorem sphHarm_dir (d : V3) (hd : d ≠ 0) (l : ℕ) (m : ℤ) (hm : m.natAbs ≤ l) :
    ((rPOf d : ℝ) : ℂ) ^ l * (starRingEnd ℂ) (sphHarm m l (phiPOf d) (thetaPOf d)) =
      (Nlm l m : ℂ) * Rsol l m d := by
  rw [thetaPOf, sphHarm_solid _ _ _ (sin_arccos_nonneg _) l m hm]
  congr 2
  exact spherical_coords d hd _ rfl rfl

theorem Rsol_out' (l : ℕ) (m : ℤ) (v : V3) (h : l < m.natAbs) : Rsol l m v = 0 :=
  Rsol_out l m v (by rw [Int.abs_eq_natAbs]; omega)

theorem trInner_out {L : ℕ} (q : Mom L) (d : V3) (l : ℕ) (m : ℤ) (h : l < m.natAbs) :
    trInner q d l m = 0 := by
  rw [trInner]
  rw [Finset.sum_eq_zero, mul_zero]
  intro k hk
  apply Finset.sum_eq_zero
  intro n hn
  rw [Finset.mem_range] at hk
  rw [Finset.mem_Icc] at hn
  rw [Rsol_out' _ _ _ (by omega), zero_mul]

theorem sum_Icc_neg (f : ℤ → ℂ) (k : ℕ) :
    ∑ n ∈ Finset.Icc (-(k : ℤ)) k, f (-n) = ∑ n ∈ Finset.Icc (-(k : ℤ)) k, f n := by
  refine Finset.sum_bij' (fun n _ => -n) (fun n _ => -n) ?_ ?_ ?_ ?_ ?_
  · intro n hn; rw [Finset.mem_Icc] at *; omega
  · intro n hn; rw [Finset.mem_Icc] at *; omega
  · intro n _; ring
  · intro n _; ring
  · intro n _; rfl

theorem pow_natAbs_sub (a b : ℤ) :
    ((-1 : ℂ)) ^ (a - b).natAbs * (-1) ^ b.natAbs = (-1) ^ a.natAbs := by
  rw [← neg_one_zpow_natAbs, ← neg_one_zpow_natAbs, ← neg_one_zpow_natAbs,
    ← zpow_add₀ (by norm_num)]
  congr 1; ring

theorem Rsol_neg' (l : ℕ) (m : ℤ) (v : V3) :
    Rsol l (-m) v = (-1) ^ m.natAbs * (starRingEnd ℂ) (Rsol l m v) := by
  rw [Rsol_neg_m, neg_one_zpow_natAbs]

theorem trInner_neg {L : ℕ} (q : Mom L) (hq : Sym q) (d : V3) (l : ℕ) (hl : l ≤ L) (m : ℤ) :
    trInner q d l (-m) = (-1) ^ m.natAbs * (starRingEnd ℂ) (trInner q d l m) := by
  rw [trInner, trInner, Nlm_neg, map_mul, Complex.conj_ofReal, mul_left_comm]
  congr 1
  rw [map_sum, Finset.mul_sum]
  apply Finset.sum_congr rfl
  intro k hk
  rw [map_sum, Finset.mul_sum, ← sum_Icc_neg]
  apply Finset.sum_congr rfl
  intro n hn
  rw [Finset.mem_range] at hk
  rw [Finset.mem_Icc] at hn
  rw [show -m - -n = -(m - n) by ring, Rsol_neg', hq k n (by omega) (by omega), Nlm_neg, map_mul,
    map_div₀, Complex.conj_ofReal, ← pow_natAbs_sub m n]
  ring

/-- Closed form of `translate_qlm`. -/
theorem translate_qlm_closed {L : ℕ} (q : Mom L) (hq : Valid q) (d : V3) :
    translate_qlm q d = Mom.ofFn L (trInner q d) := by
  apply Mom.ext_get
  intro l m hl hm
  rw [Mom.get_ofFn _ hl hm]
  by_cases hd : d = 0
  · subst hd
    rw [translate_qlm]
    simp only [if_pos ((rPOf_eq_zero 0).2 rfl)]
    by_cases hml : m.natAbs ≤ l
    · rw [trInner, Finset.sum_eq_single l, Finset.sum_eq_single m]
      · rw [Nat.sub_self, sub_self, Rsol_zero_zero, one_mul]
        have := Nlm_ne l m
        field_simp
      · intro n _ hn
        rw [Nat.sub_self, Rsol_out' _ _ _ (by omega), zero_mul]
      · intro h
        exact absurd (Finset.mem_Icc.2 ⟨by omega, by omega⟩) h
      · intro k hk hkl
        rw [Finset.mem_range] at hk
        apply Finset.sum_eq_zero
        intro n _
        rw [Rsol_at_zero _ (by omega), zero_mul]
      · intro h
        exact absurd (Finset.mem_range.2 (by omega)) h
    · rw [hq.2 l m hl hm (by omega), trInner_out _ _ _ _ (by omega)]
  · rw [translate_qlm]
    simp only [if_neg (fun h => hd ((rPOf_eq_zero d).1 h))]
    apply get_fillNeg_sym _ (trInner q d) l hl _ (fun m _ => trInner_neg q hq.1 d l hl m) m hm
    intro M hM
    by_cases h0 : 0 ≤ M
    · by_cases h1 : M ≤ l
      · rw [if_pos ⟨h0, h1⟩, if_pos h0, trInner, Finset.mul_sum]
        apply Finset.sum_congr rfl
        intro k hk
        rw [Finset.mul_sum]
        apply Finset.sum_congr rfl
        intro n hn
        rw [Finset.mem_range] at hk
        rw [Finset.mem_Icc] at hn
        by_cases h2 : |M - n| ≤ (l - k : ℕ)
        · rw [if_pos h2]
          have h3 := inner_coef (l - k) k (M - n) n h2 (abs_le.2 ⟨by omega, by omega⟩)
          rw [show l - k + k = l by omega, show M - n + n = M by ring] at h3
          have h4 := sphHarm_dir d hd (l - k) (M - n) (by rw [Int.abs_eq_natAbs] at h2; omega)
          rw [← h3]
          have h5 := Nlm_ne k n
          obtain ⟨x, hx⟩ : ∃ x, x = q.get k n / (Nlm k n : ℂ) := ⟨_, rfl⟩
          have hx2 : q.get k n = x * (Nlm k n : ℂ) := by rw [hx]; field_simp
          rw [← hx, hx2]
          push_cast at h4 ⊢
          linear_combination (x * (Nlm k n : ℂ) * (Real.sqrt (4 * Real.pi * Real.exp (gammaln (2 * (l : ℝ) + 2) -
            gammaln (2 * ((l - k : ℕ) : ℝ) + 2) - gammaln (2 * (k : ℝ) + 2))) : ℂ) *
            (cgCoeff ((l - k : ℕ) : ℤ) k (M - n) n l M : ℂ)) * h4
        · rw [if_neg h2, Rsol_out' _ _ _ (by rw [Int.abs_eq_natAbs] at h2; omega)]; ring
      · rw [if_neg (fun h => h1 h.2), if_pos h0, trInner_out _ _ _ _ (by omega)]
    · rw [if_neg (fun h => h0 h.1), if_neg h0]

/-! ## Outer moments -/

theorem outer_coef (lP L : ℕ) (mP m : ℤ) (h1 : |mP| ≤ lP) (h2 : |m| ≤ (lP + L : ℕ))
    (hM : |mP + m| ≤ L) :
    Real.sqrt (4 * Real.pi * Real.exp (gammaln (2 * (lP + L : ℕ) + 1) - gammaln (2 * lP + 2 : ℕ)
      - gammaln (2 * L + 1))) * cgCoeff lP (lP + L : ℕ) mP m L (mP + m) * Nlm lP mP *
        Nlm L (mP + m) * (2 * (lP + L : ℕ) + 1)
      = (-1) ^ (lP - mP) * ((2 * L + 1) * Nlm (lP + L) m) := by
  have ha := abs_le.1 h1
  have hb := abs_le.1 h2
  have hc := abs_le.1 hM
  have hv : CGValid lP (lP + L : ℕ) mP m L (mP + m) := by
    refine ⟨h1, h2, hM, abs_le.2 ⟨by push_cast; omega, by push_cast; omega⟩, by push_cast; omega, rfl⟩
  have hr := racah_antistretched lP (lP + L : ℕ) mP m h1 h2 (by omega)
    (by rw [show (((lP + L : ℕ) : ℤ) - lP) = L by omega]; exact hM)
  rw [show (((lP + L : ℕ) : ℤ) - lP) = L by omega] at hr
  rw [cgCoeff_valid hv, hr, Nlm_fct, Nlm_fct, Nlm_fct]
  set l : ℕ := lP + L with hl
  have hlr : (l : ℝ) = lP + L := by rw [hl]; push_cast; ring
  rw [Real.exp_sub, Real.exp_sub, exp_gammaln _ (2 * (l : ℤ)) (by omega) (by push_cast; ring),
    exp_gammaln _ (2 * (lP : ℤ) + 1) (by omega) (by push_cast; ring),
    exp_gammaln _ (2 * (L : ℤ)) (by omega) (by push_cast; ring)]
  rw [fct_succ (2 * (lP : ℤ)) (by omega), fct_succ (2 * (L : ℤ)) (by omega),
    fct_succ (2 * (l : ℤ)) (by omega)]
  have hp := fct_pos
  have q1 := hp (lP + mP)
  have q2 := hp (lP - mP)
  have q3 := hp (l + m)
  have q4 := hp (l - m)
  have q5 := hp (L + (mP + m))
  have q6 := hp (L - (mP + m))
  have q7 := hp (2 * lP)
  have q8 := hp (2 * l)
  have q9 := hp (2 * L)
  have hpi := Real.pi_pos
  have e1 : ∀ a b c d e f : ℝ, a * (b * c) * d * e * f = b * (a * c * d * e * f) := by
    intros; ring
  rw [e1]
  congr 1
  have c1 : (0 : ℝ) < (2 * (lP : ℝ) + 1) := by positivity
  have c2 : (0 : ℝ) < (2 * (l : ℝ) + 1) := by positivity
  have c3 : (0 : ℝ) < (2 * (L : ℝ) + 1) := by positivity
  rw [← Real.sqrt_sq c2.le, ← Real.sqrt_sq c3.le, ← Real.sqrt_mul', ← Real.sqrt_mul',
    ← Real.sqrt_mul', ← Real.sqrt_mul', ← Real.sqrt_mul']
  · congr 1
    rw [Real.sqrt_sq c2.le, Real.sqrt_sq c3.le]
    push_cast
    field_simp
  all_goals positivity

/-- The textbook translation of (truncated) outer moments in the reduced normalisation. -/
noncomputable def trOuter {L : ℕ} (Q : Mom L) (d : V3) (l : ℕ) (m : ℤ) : ℂ :=
  if m.natAbs ≤ l then
    ((2 * l + 1 : ℂ) / (Nlm l m : ℂ)) * ∑ k ∈ Finset.Icc l L, ∑ n ∈ Finset.Icc (-(k : ℤ)) k,
      Rsol (k - l) (n - m) (-d) * ((Nlm k n : ℂ) * Q.get k n / (2 * k + 1))
  else 0

theorem Rsol_neg_arg (l : ℕ) (m : ℤ) (v : V3) : Rsol l m (-v) = (-1) ^ l * Rsol l m v := by
  have := Rsol_smul l m (-1) v
  rw [neg_one_smul] at this
  rw [this]; push_cast; ring

theorem trOuter_neg {L : ℕ} (Q : Mom L) (hQ : Sym Q) (d : V3) (l : ℕ) (m : ℤ) :
    trOuter Q d l (-m) = (-1) ^ m.natAbs * (starRingEnd ℂ) (trOuter Q d l m) := by
  rw [trOuter, trOuter, Int.natAbs_neg]
  split_ifs with hm
  · have e : (starRingEnd ℂ) (2 * (l : ℂ) + 1) = 2 * (l : ℂ) + 1 := by
      rw [map_add, map_mul, map_one, Complex.conj_natCast, Complex.conj_ofNat]
    rw [Nlm_neg, map_mul, map_div₀, Complex.conj_ofReal, mul_left_comm, e]
    congr 1
    rw [map_sum, Finset.mul_sum]
    apply Finset.sum_congr rfl
    intro k hk
    rw [map_sum, Finset.mul_sum, ← sum_Icc_neg]
    apply Finset.sum_congr rfl
    intro n hn
    rw [Finset.mem_Icc] at hk hn
    have e : (starRingEnd ℂ) (2 * (k : ℂ) + 1) = 2 * (k : ℂ) + 1 := by
      rw [map_add, map_mul, map_one, Complex.conj_natCast, Complex.conj_ofNat]
    rw [show -n - -m = -(n - m) by ring, Rsol_neg', hQ k n (by omega) (by omega), Nlm_neg, map_mul,
      map_div₀, map_mul, Complex.conj_ofReal, e, ← pow_natAbs_sub m n,
      show (m - n).natAbs = (n - m).natAbs by omega]
    ring
  · simp

theorem neg_one_zpow_cast (n : ℤ) : (((-1 : ℝ) ^ n : ℝ) : ℂ) = (-1 : ℂ) ^ n := by
  push_cast; rfl

/-- Closed form of `translate_Qlmb`. -/
theorem translate_Qlmb_closed {L : ℕ} (Q : Mom L) (hQ : Valid Q) (d : V3) :
    translate_Qlmb Q d = Mom.ofFn L (trOuter Q d) := by
  apply Mom.ext_get
  intro l m hl hm
  rw [Mom.get_ofFn _ hl hm]
  by_cases hd : d = 0
  · subst hd
    rw [translate_Qlmb]
    simp only [if_pos ((rPOf_eq_zero 0).2 rfl)]
    by_cases hml : m.natAbs ≤ l
    · rw [trOuter, if_pos hml, Finset.sum_eq_single l, Finset.sum_eq_single m]
      · rw [Nat.sub_self, sub_self, Rsol_zero_zero, one_mul]
        have := Nlm_ne l m
        have h2 : (2 * (l : ℂ) + 1) ≠ 0 := by exact_mod_cast (by omega : 2 * l + 1 ≠ 0)
        field_simp
      · intro n _ hn
        rw [Nat.sub_self, Rsol_out' _ _ _ (by omega), zero_mul]
      · intro h
        exact absurd (Finset.mem_Icc.2 ⟨by omega, by omega⟩) h
      · intro k hk hkl
        rw [Finset.mem_Icc] at hk
        apply Finset.sum_eq_zero
        intro n _
        rw [neg_zero, Rsol_at_zero _ (by omega), zero_mul]
      · intro h
        exact absurd (Finset.mem_Icc.2 ⟨le_rfl, hl⟩) h
    · rw [hQ.2 l m hl hm (by omega), trOuter, if_neg hml]
  · rw [translate_Qlmb]
    simp only [if_neg (fun h => hd ((rPOf_eq_zero d).1 h))]
    apply get_fillNeg_sym _ (trOuter Q d) l hl _ (fun m _ => trOuter_neg Q hQ.1 d l m) m hm
    intro M hM
    by_cases h0 : 0 ≤ M
    · by_cases h1 : M ≤ l
      · rw [if_pos ⟨h0, h1⟩, if_pos h0, trOuter, if_pos (by omega), Finset.mul_sum]
        apply Finset.sum_congr rfl
        intro k hk
        rw [Finset.mul_sum]
        apply Finset.sum_congr rfl
        intro n hn
        rw [Finset.mem_Icc] at hk hn
        by_cases h2 : |M - n| ≤ (k - l : ℕ)
        · rw [if_pos ⟨h2, by omega⟩]
          have h3 := outer_coef (k - l) l (M - n) n h2
            (by rw [show k - l + l = k by omega]; exact abs_le.2 ⟨by omega, by omega⟩)
            (by rw [show M - n + n = M by ring]; exact abs_le.2 ⟨by omega, by omega⟩)
          rw [show k - l + l = k by omega, show M - n + n = M by ring] at h3
          have h4 := congrArg (starRingEnd ℂ)
            (sphHarm_dir d hd (k - l) (M - n) (by rw [Int.abs_eq_natAbs] at h2; omega))
          simp only [map_mul, map_pow, Complex.conj_ofReal, Complex.conj_conj] at h4
          have h5 := Nlm_ne l M
          have h6 := Nlm_ne (k - l) (M - n)
          have h7 : (2 * (k : ℂ) + 1) ≠ 0 := by exact_mod_cast (by omega : 2 * k + 1 ≠ 0)
          have h8 : Rsol (k - l) (n - M) (-d) =
              (-1) ^ (((k - l : ℕ) : ℤ) - (M - n)) * (starRingEnd ℂ) (Rsol (k - l) (M - n) d) := by
            rw [Rsol_neg_arg, show n - M = -(M - n) by ring, Rsol_neg', sub_eq_add_neg ((k - l : ℕ) : ℤ),
              zpow_add₀ (by norm_num), zpow_natCast, neg_one_zpow_natAbs, Int.natAbs_neg]
            ring
          have h3c := congrArg (fun x : ℝ => (x : ℂ)) h3
          simp only [Complex.ofReal_mul, neg_one_zpow_cast, Complex.ofReal_add, Complex.ofReal_one,
            Complex.ofReal_ofNat, Complex.ofReal_natCast] at h3c
          rw [h8]
          push_cast at h3c ⊢
          rw [div_mul_eq_mul_div, eq_div_iff h5]
          have h9 : ((-1 : ℂ)) ^ (((k - l : ℕ) : ℤ) - (M - n)) * (2 * (l : ℂ) + 1) * (Nlm k n : ℂ) /
              (2 * (k : ℂ) + 1) = (Real.sqrt (4 * Real.pi * Real.exp (gammaln (2 * (k : ℝ) + 1) -
            gammaln (2 * ((k - l : ℕ) : ℝ) + 2) - gammaln (2 * (l : ℝ) + 1))) : ℂ) *
            (cgCoeff ((k - l : ℕ) : ℤ) k (M - n) n l M : ℂ) * (Nlm (k - l) (M - n) : ℂ) *
              (Nlm l M : ℂ) := by
            rw [div_eq_iff h7]
            linear_combination -h3c
          linear_combination (Q.get k n * (Real.sqrt (4 * Real.pi * Real.exp (gammaln (2 * (k : ℝ) + 1) -
            gammaln (2 * ((k - l : ℕ) : ℝ) + 2) - gammaln (2 * (l : ℝ) + 1))) : ℂ) *
            (cgCoeff ((k - l : ℕ) : ℤ) k (M - n) n l M : ℂ) * (Nlm l M : ℂ)) * h4 -
            (starRingEnd ℂ) (Rsol (k - l) (M - n) d) * Q.get k n * h9
        · rw [if_neg (fun h => h2 h.1), Rsol_out' _ _ _ (by rw [Int.abs_eq_natAbs] at h2; omega)]
          ring
      · rw [if_neg (fun h => h1 h.2), if_pos h0, trOuter, if_neg (by omega)]
    · rw [if_neg (fun h => h0 h.1), if_neg h0]

end Newt
