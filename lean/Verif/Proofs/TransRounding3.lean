import Verif.Proofs.TransRounding2

/-!
# Rounding errors of the translations of moments (continued): outer moments, and outer moments from inner ones
-/

namespace Newt

open Spec Flt

variable {a : Arith} {u : ℝ} {e : ℕ → ℝ}

/-! ## Outer moments -/

/-- One entry of the exact translation. -/
noncomputable def trO {LMax : ℕ} (Q : Mom LMax) (d : V3) (L : ℕ) (M : ℤ) : ℂ :=
  ∑ l ∈ Finset.Icc L LMax, ∑ m ∈ Finset.Icc (-(l : ℤ)) l, if |M - m| ≤ (l - L : ℕ) ∧ (l - L : ℕ) ≤ LMax then
    ((outerFac L l (modulus d) * Newt.cgCoeff (l - L : ℕ) l (M - m) m L M * 1 : ℝ) : ℂ) * sphHarm (M - m) (l - L) (phiPOf d) (thetaPOf d) * Q.get l m else 0

theorem translate_Qlmb_fill {LMax : ℕ} (Q : Mom LMax) {d : V3} (hd : d ≠ 0) :
    Newt.translate_Qlmb Q d = (Mom.ofFn LMax fun L M => if 0 ≤ M ∧ M ≤ L then trO Q d L M else 0).fillNeg := by
  rw [Newt.translate_Qlmb]
  simp only [if_neg (fun h => hd ((rPOf_eq_zero d).1 h))]
  congr 2
  funext L M
  by_cases h : 0 ≤ M ∧ M ≤ L
  · rw [if_pos h, if_pos h, trO]
    refine Finset.sum_congr rfl fun l hl => Finset.sum_congr rfl fun m _ => ?_
    by_cases hm : |M - m| ≤ ((l - L : ℕ) : ℤ) ∧ l - L ≤ LMax
    · rw [if_pos hm, if_pos hm, outerFac, rP_eq, mul_one,
        sqrt_fac (2 * (l : ℝ) + 1) ((2 * (l - L) + 2 : ℕ) : ℝ) (2 * (L : ℝ) + 1) (2 * l) (2 * (l - L) + 1) (2 * L) (by push_cast; ring) (by push_cast; ring) (by push_cast; ring)]
    · rw [if_neg hm, if_neg hm]
  · rw [if_neg h, if_neg h]

theorem outerFac_nonneg (L l : ℕ) {d : ℝ} (hd : 0 ≤ d) : 0 ≤ outerFac L l d := mul_nonneg (Real.sqrt_nonneg _) (pow_nonneg hd _)

theorem outer_tr_within (h0 : 0 ≤ u) (h1 : u < 1) (ha : Accurate a u e) {LMax : ℕ} {Q Q0 : Mom LMax} {wQ : ℕ → ℤ → ℝ} {cQ : ℝ} (kQ : 1 ≤ cQ)
    (hQ : ∀ (l : ℕ) (m : ℤ), l ≤ LMax → m.natAbs ≤ l → Within cQ (wQ l m) (Q0.get l m) (Q.get l m)) {d : V3} (hd : d ≠ 0) {dd eps : ℝ}
    (hdd : PolarAccuracy u dd [⟨1, d⟩]) (heps : ∀ l, l ≤ LMax → e l ≤ eps * harmMax l) {Q' : Mom LMax} (h : Flt.translate_Qlmb a Q d Q') {l : ℕ} {m : ℤ} (hl : l ≤ LMax)
    (hm : m.natAbs ≤ l) :
    Within (transGrow u dd eps LMax LMax * cQ) (grossOuter LMax wQ (modulus d) l m.natAbs) ((Newt.translate_Qlmb Q0 d).get l m) (Q'.get l m) := by
  rcases h with ⟨hr, -⟩ | ⟨r, phi, theta, Y, f, -, hdisp, hY, hf, rfl⟩
  · exact absurd ((rad_zero_iff h0 h1 ha hr).1 rfl) hd
  rw [translate_Qlmb_fill Q0 hd]
  refine fill_within' (w := fun l m => grossOuter LMax wQ (modulus d) l m.natAbs) (fun l m => by simp) hl (fun M hM0 hM => ?_) hm
  obtain ⟨ts, hts, hadd⟩ := hf l M hl hM0 hM
  have kY := cY_one_le h0 ha hdd (N := LMax) heps
  have hB := log_fct_nonneg (2 * LMax + 1 : ℕ)
  have hd0 := modulus_nonneg d
  have S := tr_sum h0 h1 ha (L := LMax) (N := LMax) (cq := cQ) (w := fun i => outerFac l i.1 (modulus d) * |Newt.cgCoeff (i.1 - l : ℕ) i.1 (M - i.2) i.2 l M| * harmMax (i.1 - l) * wQ i.1 i.2)
    (x := fun i => ((outerFac l i.1 (modulus d) * Newt.cgCoeff (i.1 - l : ℕ) i.1 (M - i.2) i.2 l M * 1 : ℝ) : ℂ) *
      sphHarm (M - i.2) (i.1 - l) (phiPOf d) (thetaPOf d) * Q0.get i.1 i.2) (k := 4 + (3 * LMax + 1) + 1) hadd rfl kY kQ
    (by have := outerIdx_length LMax l M; omega) (forall₂_mem hts ?_)
  · rw [outerIdx_sum hl, outerIdx_sum hl] at S
    have e1 : (∑ k ∈ Finset.Icc l LMax, ∑ m ∈ Finset.Icc (-(k : ℤ)) k, if |M - m| ≤ (k - l : ℕ) ∧ (k - l : ℕ) ≤ LMax then
        outerFac l k (modulus d) * |Newt.cgCoeff (k - l : ℕ) k (M - m) m l M| * harmMax (k - l) * wQ k m else 0) = grossOuter LMax wQ (modulus d) l M.natAbs := by
      rw [grossOuter, Int.natAbs_of_nonneg hM0]
      refine Finset.sum_congr rfl fun k hk => Finset.sum_congr rfl fun m _ => ?_
      rw [Finset.mem_Icc] at hk
      by_cases hm : |M - m| ≤ ((k - l : ℕ) : ℤ)
      · rw [if_pos ⟨hm, by omega⟩]
      · rw [if_neg (fun h => hm h.1), cgCoeff_invalid (fun hv => hm hv.1)]; simp
    rw [e1] at S
    exact S
  · rintro ⟨k, m⟩ hi t ⟨f0, rl, fac, c, b1, b2, b3, b4, b5⟩
    obtain ⟨i1, i1', i2, i3⟩ := outerIdx_mem hi
    dsimp only at i1 i1' i2 i3 b1 b2 b3 b4 b5 ⊢
    rw [abs_le] at i3
    have g1 := grow_one_le h0 h1 1
    have E3 := one_le_exp' h0 h1 (k := 4) (x := 3 * Real.log (fct (2 * LMax + 1 : ℕ))) (by linarith)
    have E6 := one_le_exp' h0 h1 (k := 4) (x := 6 * Real.log (fct (2 * LMax + 1 : ℕ))) (by linarith)
    have U1 := trFac_upTo h0 h1 ha (2 * k : ℕ) (2 * (k - l) + 1 : ℕ) (2 * l : ℕ) (2 * LMax + 1 : ℕ) (by omega) (by omega) (by omega) (by push_cast; ring) (by push_cast; ring)
      (by push_cast; ring) (by omega) (by omega) (by omega) b1
    have U2 := (pow_upTo h0 h1 ha hdisp.1 b2).mono (grow_one_le h0 h1 _) (grow_mono h0 h1 (by omega : 3 * (k - l) + 1 ≤ 3 * LMax + 1))
    have k4 := one_le_mul_of_one_le_of_one_le E3 (grow_one_le h0 h1 4)
    have kr := grow_one_le h0 h1 (3 * LMax + 1)
    have U3 := (U1.mul k4 kr U2).rd h0 h1 (one_le_mul_of_one_le_of_one_le k4 kr) (ha.op _ _ b3)
    have e4 : Real.exp (relErr u 4 * (3 * Real.log (fct (2 * LMax + 1 : ℕ)))) * grow u 4 * grow u (3 * LMax + 1) * grow u 1 =
        Real.exp (relErr u 4 * (3 * Real.log (fct (2 * LMax + 1 : ℕ)))) * grow u (4 + (3 * LMax + 1) + 1) := by
      rw [← grow_add h1 (4 + (3 * LMax + 1)), ← grow_add h1 4]; ring
    rw [e4] at U3
    rw [sqrt_fac (2 * (k : ℝ) + 1) (2 * ((k - l : ℕ) : ℝ) + 2) (2 * (l : ℝ) + 1) (2 * k) (2 * (k - l) + 1) (2 * l) (by push_cast; ring) (by push_cast; ring) (by push_cast; ring), rP_eq] at U3
    have hcg := cg_stretched_within h0 h1 ha (N := (2 * LMax + 1 : ℕ)) (Or.inr (by omega)) (by omega) b4
    have T := trTerm_within h0 h1 ha (one_le_mul_of_one_le_of_one_le E3 (grow_one_le h0 h1 _)) (one_le_mul_of_one_le_of_one_le E6 (grow_one_le h0 h1 _)) kY U3 hcg abs_one
      (disp_within h0 h1 ha hd hdd hdisp (N := LMax) (by omega) (heps _ (by omega)) (by omega) (hY (k - l) (M - m) (by omega) (by omega))) (hQ k m (by omega) (by omega)) b5
    have e2 := abs_of_nonneg (outerFac_nonneg l k hd0)
    rw [outerFac] at e2 ⊢
    rw [e2] at T
    exact T

/-! ## Outer moments from inner ones -/

/-- One entry of the exact result. -/
noncomputable def trX {LMax : ℕ} (q : Mom LMax) (d : V3) (L : ℕ) (M : ℤ) : ℂ :=
  ∑ l ∈ Finset.range (LMax + 1), ∑ m ∈ Finset.Icc (-(l : ℤ)) l, if |M + m| ≤ (L + l : ℕ) then
    ((crossFac L l (modulus d) * Newt.cgCoeff l (L + l : ℕ) (-m) (M + m) L M * (-1) ^ m : ℝ) : ℂ) * sphHarm (M + m) (L + l) (phiPOf d) (thetaPOf d) * q.get l m else 0

theorem translate_q2Q_fill {LMax : ℕ} (q : Mom LMax) {d : V3} (hd : d ≠ 0) :
    Newt.translate_q2Q q d = some (Mom.ofFn LMax fun L M => if M.natAbs ≤ L then trX q d L M else 0) := by
  rw [Newt.translate_q2Q]
  simp only [if_neg (fun h => hd ((rPOf_eq_zero d).1 h))]
  congr 2
  funext L M
  by_cases h : M.natAbs ≤ L
  · rw [if_pos h, if_pos (by rw [Int.abs_eq_natAbs]; omega), trX]
    refine Finset.sum_congr rfl fun l hl => Finset.sum_congr rfl fun m _ => ?_
    by_cases hm : |M + m| ≤ ((L + l : ℕ) : ℤ)
    · rw [if_pos hm, if_pos hm, crossFac, rP_eq,
        sqrt_fac ((2 * (L + l) + 1 : ℕ) : ℝ) (2 * (l : ℝ) + 2) (2 * (L : ℝ) + 1) (2 * (L + l)) (2 * l + 1) (2 * L) (by push_cast; ring) (by push_cast; ring) (by push_cast; ring)]
    · rw [if_neg hm, if_neg hm]
  · rw [if_neg h, if_neg (by rw [Int.abs_eq_natAbs]; omega)]

theorem crossFac_nonneg (L l : ℕ) {d : ℝ} (hd : 0 ≤ d) : 0 ≤ crossFac L l d := div_nonneg (Real.sqrt_nonneg _) (pow_nonneg hd _)

theorem cross_tr_within (h0 : 0 ≤ u) (h1 : u < 1) (ha : Accurate a u e) {LMax : ℕ} {q q0 : Mom LMax} {wq : ℕ → ℤ → ℝ} {cq : ℝ} (kq : 1 ≤ cq)
    (hq : ∀ (l : ℕ) (m : ℤ), l ≤ LMax → m.natAbs ≤ l → Within cq (wq l m) (q0.get l m) (q.get l m)) {d : V3} (hd : d ≠ 0) {dd eps : ℝ}
    (hdd : PolarAccuracy u dd [⟨1, d⟩]) (heps : ∀ l, l ≤ 2 * LMax → e l ≤ eps * harmMax l) {Q0 Q' : Mom LMax} (h0' : Newt.translate_q2Q q0 d = some Q0)
    (h : Flt.translate_q2Q a q d Q') {l : ℕ} {M : ℤ} (hl : l ≤ LMax) (hm : M.natAbs ≤ l) :
    Within (transGrow u dd eps LMax (2 * LMax : ℕ) * cq) (grossCross LMax wq (modulus d) l M) (Q0.get l M) (Q'.get l M) := by
  obtain ⟨r, phi, theta, Y, f, -, hdisp, hY, hf, rfl⟩ := h
  rw [translate_q2Q_fill q0 hd, Option.some.injEq] at h0'
  subst h0'
  rw [Mom.get_ofFn _ hl (by omega), Mom.get_ofFn _ hl (by omega), if_pos hm, if_pos hm]
  obtain ⟨ts, hts, hadd⟩ := hf l M hl hm
  have kY := cY_one_le h0 ha hdd (N := 2 * LMax) heps
  have hB := log_fct_nonneg (2 * (2 * LMax) + 1 : ℕ)
  have hd0 := modulus_nonneg d
  have S := tr_sum h0 h1 ha (L := LMax) (N := 2 * LMax) (cq := cq) (w := fun i => crossFac l i.1 (modulus d) * |Newt.cgCoeff i.1 (l + i.1 : ℕ) (-i.2) (M + i.2) l M| * harmMax (l + i.1) * wq i.1 i.2)
    (x := fun i => ((crossFac l i.1 (modulus d) * Newt.cgCoeff i.1 (l + i.1 : ℕ) (-i.2) (M + i.2) l M * (-1) ^ i.2 : ℝ) : ℂ) *
      sphHarm (M + i.2) (l + i.1) (phiPOf d) (thetaPOf d) * q0.get i.1 i.2) (k := 4 + (6 * LMax + 4) + 1) hadd rfl kY kq
    (by have := crossIdx_length LMax l M; omega) (forall₂_mem hts ?_)
  · rw [crossIdx_sum, crossIdx_sum] at S
    have e1 : (∑ k ∈ Finset.range (LMax + 1), ∑ m ∈ Finset.Icc (-(k : ℤ)) k, if |M + m| ≤ (l + k : ℕ) then
        crossFac l k (modulus d) * |Newt.cgCoeff k (l + k : ℕ) (-m) (M + m) l M| * harmMax (l + k) * wq k m else 0) = grossCross LMax wq (modulus d) l M := by
      rw [grossCross]
      refine Finset.sum_congr rfl fun k hk => Finset.sum_congr rfl fun m _ => ?_
      by_cases hm : |M + m| ≤ ((l + k : ℕ) : ℤ)
      · rw [if_pos hm]
      · rw [if_neg hm, cgCoeff_invalid (fun hv => hm hv.2.1)]; simp
    rw [e1] at S
    exact S
  · rintro ⟨k, m⟩ hi t ⟨f0, rl, fac, c, b1, b2, b3, b4, b5⟩
    obtain ⟨i1, i2, i3⟩ := crossIdx_mem hi
    dsimp only at i1 i2 i3 b1 b2 b3 b4 b5 ⊢
    rw [abs_le] at i3
    have g1 := grow_one_le h0 h1 1
    have E3 := one_le_exp' h0 h1 (k := 4) (x := 3 * Real.log (fct (2 * (2 * LMax) + 1 : ℕ))) (by linarith)
    have E6 := one_le_exp' h0 h1 (k := 4) (x := 6 * Real.log (fct (2 * (2 * LMax) + 1 : ℕ))) (by linarith)
    have U1 := trFac_upTo h0 h1 ha (2 * (l + k) : ℕ) (2 * k + 1 : ℕ) (2 * l : ℕ) (2 * (2 * LMax) + 1 : ℕ) (by omega) (by omega) (by omega) (by push_cast; ring) (by push_cast; ring)
      (by push_cast; ring) (by omega) (by omega) (by omega) b1
    have U2 := (pow_upTo h0 h1 ha hdisp.1 b2).mono (grow_one_le h0 h1 _) (grow_mono h0 h1 (by omega : 3 * (l + k + 1) + 1 ≤ 6 * LMax + 4))
    have k4 := one_le_mul_of_one_le_of_one_le E3 (grow_one_le h0 h1 4)
    have kr := grow_one_le h0 h1 (6 * LMax + 4)
    have U3 := (U1.div k4 kr U2).rd h0 h1 (one_le_mul_of_one_le_of_one_le k4 kr) (ha.op _ _ b3)
    have e4 : Real.exp (relErr u 4 * (3 * Real.log (fct (2 * (2 * LMax) + 1 : ℕ)))) * grow u 4 * grow u (6 * LMax + 4) * grow u 1 =
        Real.exp (relErr u 4 * (3 * Real.log (fct (2 * (2 * LMax) + 1 : ℕ)))) * grow u (4 + (6 * LMax + 4) + 1) := by
      rw [← grow_add h1 (4 + (6 * LMax + 4)), ← grow_add h1 4]; ring
    rw [e4] at U3
    rw [sqrt_fac (2 * ((l + k : ℕ) : ℝ) + 1) (2 * (k : ℝ) + 2) (2 * (l : ℝ) + 1) (2 * (l + k)) (2 * k + 1) (2 * l) (by push_cast; ring) (by push_cast; ring) (by push_cast; ring), rP_eq] at U3
    have hcg := cg_stretched_within h0 h1 ha (N := (2 * (2 * LMax) + 1 : ℕ)) (Or.inr (by push_cast; ring)) (by omega) b4
    have hs : |(-1 : ℝ) ^ m| = 1 := by rw [abs_zpow, abs_neg, abs_one, one_zpow]
    have T := trTerm_within h0 h1 ha (one_le_mul_of_one_le_of_one_le E3 (grow_one_le h0 h1 _)) (one_le_mul_of_one_le_of_one_le E6 (grow_one_le h0 h1 _)) kY U3 hcg hs
      (disp_within h0 h1 ha hd hdd hdisp (N := 2 * LMax) (by omega) (heps _ (by omega)) (by omega) (hY (l + k) (M + m) (by omega) (by omega))) (hq k m (by omega) (by omega)) b5
    have e2 := abs_of_nonneg (crossFac_nonneg l k hd0)
    rw [crossFac] at e2 ⊢
    rw [e2] at T
    exact T

end Newt
