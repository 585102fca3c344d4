import Verif.Proofs.RecRounding

/-!
# Rounding errors of the recursive Wigner matrices: starting values, wedge, copies
-/

namespace Newt

open Spec Flt

variable {a : Arith} {u : ℝ} {e : ℕ → ℝ}

/-! ## The angle of a rounded cosine -/

theorem cos_gap {x y : ℝ} (hy : 0 ≤ y) (hyx : y ≤ x) (hx : x ≤ Real.pi) : 2 * ((x - y) / Real.pi) ^ 2 ≤ Real.cos y - Real.cos x := by
  have hp := Real.pi_pos
  have s1 : 2 / Real.pi * ((x - y) / 2) ≤ Real.sin ((x - y) / 2) := Real.mul_le_sin (by linarith) (by linarith)
  have s0 : 0 ≤ 2 / Real.pi * ((x - y) / 2) := mul_nonneg (by positivity) (by linarith)
  have s2 : (2 / Real.pi * ((x - y) / 2)) ^ 2 ≤ Real.sin ((x - y) / 2) ^ 2 := pow_le_pow_left₀ s0 s1 2
  have s3 : 0 ≤ Real.sin (y / 2) := Real.sin_nonneg_of_nonneg_of_le_pi (by linarith) (by linarith)
  have s4 : 0 ≤ Real.cos (x / 2) := Real.cos_nonneg_of_neg_pi_div_two_le_of_le (by linarith) (by linarith)
  have e1 : Real.cos y - Real.cos x = 2 * Real.sin ((x - y) / 2) ^ 2 + 4 * (Real.sin ((x - y) / 2) * (Real.cos (x / 2) * Real.sin (y / 2))) := by
    rw [show (x - y) / 2 = x / 2 - y / 2 by ring, Real.sin_sub, show Real.cos y = Real.cos (2 * (y / 2)) by congr 1; ring,
      show Real.cos x = Real.cos (2 * (x / 2)) by congr 1; ring, Real.cos_two_mul, Real.cos_two_mul]
    have p1 := Real.sin_sq_add_cos_sq (x / 2)
    have p2 := Real.sin_sq_add_cos_sq (y / 2)
    linear_combination (-(2 * Real.cos (y / 2) ^ 2)) * p1 + (2 * Real.cos (x / 2) ^ 2) * p2
  have h5 : 0 ≤ Real.sin ((x - y) / 2) := s0.trans s1
  have : 0 ≤ Real.sin ((x - y) / 2) * (Real.cos (x / 2) * Real.sin (y / 2)) := by positivity
  rw [e1, show 2 * ((x - y) / Real.pi) ^ 2 = 2 * (2 / Real.pi * ((x - y) / 2)) ^ 2 by congr 2; field_simp]
  linarith

theorem angle_gap {x y d : ℝ} (hx : 0 ≤ x) (hx' : x ≤ Real.pi) (hy : 0 ≤ y) (hy' : y ≤ Real.pi) (h : |Real.cos x - Real.cos y| ≤ d) :
    |x - y| ≤ Real.pi * Real.sqrt (d / 2) := by
  wlog hyx : y ≤ x generalizing x y with H
  · rw [abs_sub_comm]
    exact H hy hy' hx hx' (by rw [abs_sub_comm]; exact h) (by linarith)
  have hp := Real.pi_pos
  have g := cos_gap hy hyx hx'
  have h1 := (abs_le.1 h).1
  have : (x - y) / Real.pi ≤ Real.sqrt (d / 2) := Real.le_sqrt_of_sq_le (by linarith)
  rw [abs_of_nonneg (by linarith)]
  rw [div_le_iff₀ hp] at this
  linarith

theorem angle_always (h0 : 0 ≤ u) {beta : ℝ} (hb : 0 ≤ beta) (hb' : beta ≤ Real.pi) : AngleAccuracy u beta (Real.pi * Real.sqrt (u / 2)) := by
  refine ⟨by have := Real.pi_pos; positivity, fun c hc h => ?_⟩
  refine angle_gap (Real.arccos_nonneg _) (Real.arccos_le_pi _) hb hb' ?_
  rw [Real.cos_arccos (abs_le.1 hc).1 (abs_le.1 hc).2]
  refine h.trans ?_
  have := Real.abs_cos_le_one beta
  nlinarith [abs_nonneg (Real.cos beta)]

theorem sin_lip' (x y : ℝ) : |Real.sin x - Real.sin y| ≤ |x - y| := by
  have h := phase_lip x y
  have := (Complex.abs_im_le_norm ((⟨Real.cos x, -Real.sin x⟩ : ℂ) - ⟨Real.cos y, -Real.sin y⟩)).trans h
  rw [Complex.sub_im] at this
  simp only at this
  rwa [show -Real.sin x - -Real.sin y = -(Real.sin x - Real.sin y) by ring, abs_neg] at this

theorem angle_middle (h0 : 0 ≤ u) {beta : ℝ} (hb : 0 ≤ beta) (hb' : beta ≤ Real.pi) (hs : Real.pi * Real.sqrt (u / 2) ≤ Real.sin beta) (hs0 : 0 < Real.sin beta) :
    AngleAccuracy u beta (Real.pi * u * |Real.cos beta| / Real.sin beta) := by
  have hpi := Real.pi_pos
  refine ⟨by positivity, fun c hc h => ?_⟩
  have h1 := (angle_always h0 hb hb').2 c hc h
  have hcc := Real.cos_arccos (abs_le.1 hc).1 (abs_le.1 hc).2
  set x := Real.arccos c with hx
  rw [← hcc] at h
  have x0 : 0 ≤ x := Real.arccos_nonneg _
  have x1 : x ≤ Real.pi := Real.arccos_le_pi _
  have e1 : |Real.cos x - Real.cos beta| = 2 * (|Real.sin ((x + beta) / 2)| * |Real.sin ((x - beta) / 2)|) := by
    rw [Real.cos_sub_cos, ← abs_mul, show -2 * Real.sin ((x + beta) / 2) * Real.sin ((x - beta) / 2) = -(2 * (Real.sin ((x + beta) / 2) * Real.sin ((x - beta) / 2))) by ring, abs_neg,
      abs_mul 2, abs_two]
  have e2 : Real.sin beta / 2 ≤ |Real.sin ((x + beta) / 2)| := by
    have k := sin_lip' ((x + beta) / 2) beta
    rw [show (x + beta) / 2 - beta = (x - beta) / 2 by ring, abs_div, abs_two] at k
    have := (abs_le.1 k).1
    have := le_abs_self (Real.sin ((x + beta) / 2))
    linarith
  have e3 : |x - beta| / Real.pi ≤ |Real.sin ((x - beta) / 2)| := by
    have k : 2 / Real.pi * (|x - beta| / 2) ≤ Real.sin (|x - beta| / 2) :=
      Real.mul_le_sin (by positivity) (by have : |x - beta| ≤ Real.pi := abs_le.2 ⟨by linarith, by linarith⟩; linarith)
    have q : |Real.sin ((x - beta) / 2)| = |Real.sin (|x - beta| / 2)| := by
      rcases abs_cases (x - beta) with ⟨q, -⟩ | ⟨q, -⟩
      · rw [q]
      · rw [q, neg_div, Real.sin_neg, abs_neg]
    rw [q]
    refine le_trans (le_of_eq (by field_simp)) (k.trans (le_abs_self _))
  have e4 : 2 * (Real.sin beta / 2 * (|x - beta| / Real.pi)) ≤ u * |Real.cos beta| := by
    refine le_trans ?_ (e1 ▸ h)
    have : 0 ≤ |x - beta| / Real.pi := by positivity
    exact mul_le_mul_of_nonneg_left (mul_le_mul e2 e3 this (abs_nonneg _)) (by norm_num)
  rw [le_div_iff₀ hs0]
  have e5 : |x - beta| * Real.sin beta = 2 * (Real.sin beta / 2 * (|x - beta| / Real.pi)) * Real.pi := by field_simp
  rw [e5]
  nlinarith

/-! ## Starting values -/

theorem rfac_fact {k m : ℕ} (hm : m ≤ k) : rfac ((k : ℤ) - m) (k + m) = ((k - m).factorial : ℝ) / (k + m).factorial := by
  rw [rfac, Real.exp_sub, exp_gammaln _ (k - m) (by omega) (by push_cast; ring), exp_gammaln _ (k + m) (by omega) (by push_cast; ring), fct, fct,
    show ((k : ℤ) - m).toNat = k - m by omega, show ((k : ℤ) + m).toNat = k + m by omega]

theorem hInit_val {k m : ℕ} (hm : m ≤ k) (beta : ℝ) :
    hInit k beta 0 m = (-1) ^ m * Real.sqrt (((k - m).factorial : ℝ) / (k + m).factorial) * lpmv m k (Real.cos beta) := by
  rw [hInit, setRow, if_pos ⟨rfl, by omega, by omega⟩, rfac_fact hm, zpow_natCast, Int.toNat_natCast]

theorem hInit_lip {k m : ℕ} (hm : m ≤ k) (x y : ℝ) : |hInit k x 0 m - hInit k y 0 m| ≤ k * |x - y| := by
  have hp : 0 < harmMax k := Real.sqrt_pos.2 (by have := Real.pi_pos; positivity)
  have key : ∀ t : ℝ, sphHarm m k 0 t = ((harmMax k * ((-1) ^ m * hInit k t 0 m) : ℝ) : ℂ) := fun t => by
    rw [hInit_val hm, sphHarm, if_pos (by omega), Int.natAbs_natCast, Real.sqrt_mul (by have := Real.pi_pos; positivity), harmMax]
    have : ((-1 : ℝ) ^ m) * (-1) ^ m = 1 := by rw [← mul_pow]; simp
    simp only [Complex.ofReal_zero, mul_zero, Complex.exp_zero, mul_one]
    rw [← Complex.ofReal_mul]
    congr 1
    linear_combination (-(Real.sqrt ((2 * k + 1) / (4 * Real.pi)) * Real.sqrt (((k - m).factorial : ℝ) / (k + m).factorial) * lpmv m k (Real.cos t))) * this
  have h := sphHarm_lip k m (by omega) 0 x 0 y
  rw [key, key, ← Complex.ofReal_sub, Complex.norm_real, Real.norm_eq_abs, ← mul_sub, ← mul_sub, abs_mul, abs_mul, abs_pow, abs_neg, abs_one, one_pow, one_mul, abs_of_pos hp,
    sub_self, abs_zero, add_zero] at h
  exact le_of_mul_le_mul_left h hp

theorem start_err (h0 : 0 ≤ u) (hu : u < 1) (ha : Accurate a u e) (hU : UnitSafe a) {leg : Leg} {eps : ℝ} {n k m : ℕ} (hL : LegAccurate leg (n + 1) eps) (hm : m ≤ k)
    (hk : k ≤ n + 1) {beta cb h d : ℝ} (hb : 0 ≤ beta) (hb' : beta ≤ Real.pi) (hd : AngleAccuracy u beta d) (hcb : a.lib (Real.cos beta) cb) (hs : Start a leg k m cb h) :
    |h - Ht k (Real.cos (beta / 2)) (Real.sin (beta / 2)) 0 m| ≤ startErr u eps d n := by
  obtain ⟨g, g', w, x, r, p, hg, hg', hw, hx, hr, hp, hh⟩ := hs
  have G := grow_one_le h0 hu
  have he0 := hL.1
  have hc1 : |cb| ≤ 1 := hU _ _ (Real.abs_cos_le_one _) hcb
  have hsb : 0 ≤ Real.sin beta := Real.sin_nonneg_of_nonneg_of_le_pi hb hb'
  -- the angle of the rounded cosine
  set b' := Real.arccos cb with hb'd
  have hcos : Real.cos b' = cb := Real.cos_arccos (abs_le.1 hc1).1 (abs_le.1 hc1).2
  have hsb' : 0 ≤ Real.sin b' := Real.sin_nonneg_of_nonneg_of_le_pi (Real.arccos_nonneg _) (Real.arccos_le_pi _)
  have gap : |b' - beta| ≤ d := hd.2 cb hc1 (ha.lib _ _ hcb)
  have lip := hInit_lip hm b' beta
  have lip' : |hInit k b' 0 m - hInit k beta 0 m| ≤ (n + 1) * d := by
    have hk' : (k : ℝ) ≤ n + 1 := by exact_mod_cast hk
    exact lip.trans (mul_le_mul hk' gap (abs_nonneg _) (by positivity))
  -- the factorials
  set F := Real.log (2 * (n + 1)).factorial with hF
  have L1 := gammaln_fct (x := (k : ℝ) - m + 1) (k - m) (by omega) (by push_cast; ring)
  have L2 := gammaln_fct (x := (k : ℝ) + m + 1) (k + m) (by omega) (by push_cast; ring)
  have W1 := lib_within h0 hu ha (by rw [L1]; exact log_fct_nonneg _) hg
  have W2 := lib_within h0 hu ha (by rw [L2]; exact log_fct_nonneg _) hg'
  have W := (op_within h0 hu ha (W1.sub W2) hw).2
  have hlog : gammaln ((k : ℝ) - m + 1) + gammaln ((k : ℝ) + m + 1) ≤ F := by
    rw [L1, L2]
    refine (log_fct_add (by omega) (by omega)).trans ?_
    have : F = Real.log (fct (2 * (n + 1))) := by
      rw [hF, fct]; congr 3
    rw [this]
    exact log_fct_mono (by omega)
  have hD : |w - (gammaln ((k : ℝ) - m + 1) - gammaln ((k : ℝ) + m + 1))| ≤ relErr u 2 * F := by
    rw [Real.norm_eq_abs] at W
    refine W.trans ?_
    rw [grow, add_sub_cancel_left]
    exact mul_le_mul_of_nonneg_left hlog (relErr_nonneg h0 hu 2)
  set E := Real.exp (relErr u 2 * F) with hE
  have E1 : 1 ≤ E := Real.one_le_exp (mul_nonneg (relErr_nonneg h0 hu 2) (Real.log_natCast_nonneg _))
  have X := UpTo.rd h0 hu E1 (UpTo.exp hD) (ha.lib _ _ hx)
  have c1 : 1 ≤ E * grow u 1 := one_le_mul_of_one_le_of_one_le E1 (G 1)
  have R := op_upTo h0 hu ha c1 (X.sqrt c1) hr
  rw [mul_assoc, grow_add hu] at R
  have hrf : Real.exp (gammaln ((k : ℝ) - m + 1) - gammaln ((k : ℝ) + m + 1)) = ((k - m).factorial : ℝ) / (k + m).factorial := by
    rw [← rfac_fact hm, rfac]; push_cast; rfl
  rw [hrf] at R
  set N := Real.sqrt (((k - m).factorial : ℝ) / (k + m).factorial) with hN
  have N0 : 0 ≤ N := Real.sqrt_nonneg _
  obtain ⟨θ, rfl, t1, t2⟩ := R
  -- the Legendre function
  have hLeg := hL.2 m k cb p hm hk hc1 hp
  have exact : |hInit k b' 0 m| ≤ 1 := by
    rw [hInit_row k b' hsb' m (by omega) (by omega)]
    exact Ht_abs_le (Real.cos_sq_add_sin_sq _) (by omega) (by omega)
  have sg : |(-1 : ℝ) ^ m| = 1 := by rw [abs_pow, abs_neg, abs_one, one_pow]
  have V : Within (1 + eps) 1 (hInit k b' 0 m) ((-1) ^ m * N * p) := by
    refine ⟨by rwa [Real.norm_eq_abs], ?_⟩
    rw [hInit_val hm, hcos, ← mul_sub, norm_mul, norm_mul, Real.norm_eq_abs, Real.norm_eq_abs, Real.norm_eq_abs, sg, one_mul, abs_of_nonneg N0, add_sub_cancel_left, mul_one]
    exact hLeg
  have c2 : 1 ≤ E * grow u (1 + 1) := one_le_mul_of_one_le_of_one_le E1 (G _)
  have hθ : |θ - 1| ≤ E * grow u (1 + 1) - 1 := by
    have hc := UpTo.within (x := 1) c2 ⟨θ, rfl, t1, t2⟩
    have := hc.2
    rwa [mul_one, abs_one, mul_one, Real.norm_eq_abs] at this
  have V2 : Within ((1 + eps) * (1 + (E * grow u (1 + 1) - 1))) 1 (hInit k b' 0 m) ((-1) ^ m * (θ * N) * p) := by
    refine V.round (by linarith) ?_
    rw [show (-1) ^ m * (θ * N) * p - (-1) ^ m * N * p = (θ - 1) * ((-1) ^ m * N * p) by ring, norm_mul]
    exact mul_le_mul_of_nonneg_right hθ (norm_nonneg _)
  have V3 := (Within.op h0 hu V2 (ha.op _ _ hh)).2
  rw [mul_one, Real.norm_eq_abs] at V3
  have e3 : (1 + eps) * (1 + (E * grow u (1 + 1) - 1)) * grow u 1 = E * (1 + relErr u 3) * (1 + eps) := by
    have := grow_add hu 2 1 (u := u)
    rw [show grow u (2 + 1) = 1 + relErr u 3 from rfl] at this
    rw [← this]; ring
  rw [e3] at V3
  rw [← hInit_row k beta hsb m (by omega) (by omega), startErr]
  calc |h - hInit k beta 0 m| = |(h - hInit k b' 0 m) + (hInit k b' 0 m - hInit k beta 0 m)| := by congr 1; ring
    _ ≤ _ := (abs_add_le _ _).trans (add_le_add V3 lip')

theorem startErr_nonneg (h0 : 0 ≤ u) (hu : u < 1) {eps d : ℝ} (he : 0 ≤ eps) (hd : 0 ≤ d) (n : ℕ) : 0 ≤ startErr u eps d n := by
  rw [startErr]
  have E1 : 1 ≤ Real.exp (relErr u 2 * Real.log (2 * (n + 1)).factorial) :=
    Real.one_le_exp (mul_nonneg (relErr_nonneg h0 hu 2) (Real.log_natCast_nonneg _))
  have := one_le_mul_of_one_le_of_one_le (one_le_mul_of_one_le_of_one_le E1 (grow_one_le h0 hu 3)) (by linarith : 1 ≤ 1 + eps)
  rw [grow] at this
  have : 0 ≤ (n + 1) * d := by positivity
  linarith

/-! ## The wedge -/

theorem wedge_err (h0 : 0 ≤ u) (hu : u ≤ 1 / 1000) (ha : Accurate a u e) {n : ℕ} (hn : 1 ≤ n) {beta cb sb ε : ℝ} (hε : 0 ≤ ε) (hs : 0 ≤ Real.sin beta)
    (hcb : a.lib (Real.cos beta) cb) (hsb : a.lib (Real.sin beta) sb) {row up : ℕ → ℝ} {W : CMat} (hW : Wedge a n cb sb row up W)
    (hrow : ∀ m : ℕ, m ≤ n → |row m - Ht n (Real.cos (beta / 2)) (Real.sin (beta / 2)) 0 m| ≤ ε)
    (hup : ∀ m : ℕ, m ≤ n + 1 → |up m - Ht (n + 1) (Real.cos (beta / 2)) (Real.sin (beta / 2)) 0 m| ≤ ε) (k : ℕ) :
    ∀ i m : ℤ, i.natAbs = k → (k : ℤ) ≤ m → m ≤ n → |W i m - Ht n (Real.cos (beta / 2)) (Real.sin (beta / 2)) i m| ≤ 3 ^ k * (5 / 2 * ε + 32 * u) := by
  have hu1 : u < 1 := by linarith
  have hcs : Real.cos (beta / 2) ^ 2 + Real.sin (beta / 2) ^ 2 = 1 := Real.cos_sq_add_sin_sq _
  have g6 : relErr u 6 ≤ 6.13 * u := (relErr_le h0 (by push_cast; linarith)).trans (by push_cast; linarith)
  have g11 : relErr u 11 ≤ 11.23 * u := (relErr_le h0 (by push_cast; linarith)).trans (by push_cast; linarith)
  have p6 := relErr_nonneg h0 hu1 6
  have p11 := relErr_nonneg h0 hu1 11
  have R0 : ∀ m : ℤ, 0 ≤ m → m ≤ n → |W 0 m - Ht n (Real.cos (beta / 2)) (Real.sin (beta / 2)) 0 m| ≤ ε := fun m h1 h2 => by
    obtain ⟨k, rfl⟩ := Int.eq_ofNat_of_zero_le h1
    have := hrow k (by omega)
    rwa [← hW.row0 k (by omega)] at this
  have R1 : ∀ m : ℤ, 1 ≤ m → m ≤ n → |W 1 m - Ht n (Real.cos (beta / 2)) (Real.sin (beta / 2)) 1 m| ≤ 5.0562 * ε + 56.2 * u := fun m h1 h2 => by
    obtain ⟨k, rfl⟩ := Int.eq_ofNat_of_zero_le (by omega : 0 ≤ m)
    have hk : 1 ≤ k := by omega
    have := row1_err h0 hu1 ha hn h1 h2 hε hs hcb hsb (by have := hup (k + 1) (by omega); push_cast at this; exact this)
      (by have := hup (k - 1) (by omega); rwa [show ((k - 1 : ℕ) : ℤ) = (k : ℤ) - 1 by omega] at this) (hup k (by omega)) (hW.row1 k hk (by omega))
    refine this.trans ?_
    nlinarith
  induction k using Nat.strong_induction_on with
  | _ k ih =>
    intro i m hi hm hmn
    match k, ih, hi, hm with
    | 0, ih, hi, hm =>
      obtain rfl : i = 0 := by omega
      refine (R0 m hm hmn).trans ?_
      rw [pow_zero]; linarith
    | 1, ih, hi, hm =>
      rw [pow_one]
      rcases (by omega : i = 1 ∨ i = -1) with rfl | rfl
      · refine (R1 m hm hmn).trans (by linarith)
      · have hr : |dnm n (-0)| ≤ 1 * |dnm n (-0 - 1)| := by
          rw [dnm_neg, neg_zero, one_mul]
        have fin : (1 + relErr u 6) * (1 * (5.0562 * ε + 56.2 * u) + 2 * ε) + relErr u 6 * (1 + 2) ≤ 3 * (5 / 2 * ε + 32 * u) := by
          nlinarith
        rcases eq_or_lt_of_le hmn with rfl | hlt
        · have := end5_err h0 hu1 ha hcs le_rfl (by omega) hr (hW.end5 0 le_rfl (by omega)) (by simpa using R1 n (by omega) le_rfl) (by simpa using R0 (n - 1) (by omega) (by omega))
          simp only [neg_zero, zero_sub] at this
          exact this.trans fin
        · have := step5_err h0 hu1 ha hcs le_rfl (by omega) (by omega) hlt hr (hW.step5 0 m le_rfl (by omega) (by omega) hlt) (by simpa using R1 m (by omega) (by omega))
            (by simpa using R0 (m - 1) (by omega) (by omega)) (by simpa using R0 (m + 1) (by omega) (by omega))
          simp only [neg_zero, zero_sub] at this
          exact this.trans fin
    | k + 2, ih, hi, hm =>
      have b0 : 0 ≤ 5 / 2 * ε + 32 * u := by linarith
      have i0 := ih k (by omega)
      have i1 := ih (k + 1) (by omega)
      set B := 5 / 2 * ε + 32 * u with hB
      have hP : (1 : ℝ) ≤ 3 ^ k := one_le_pow₀ (by norm_num)
      set P : ℝ := 3 ^ k with hPd
      have hPB : 32 * u ≤ P * B := by nlinarith
      have fin : (1 + relErr u 6) * (3 / 2 * (P * B) + 2 * (P * 3 * B)) + relErr u 6 * (3 / 2 + 2) ≤ P * 3 ^ 2 * B := by
        have : 0 ≤ P * B := by positivity
        nlinarith
      rw [pow_add] at i1 ⊢
      rw [pow_one] at i1
      push_cast at hm
      rcases (by omega : i = (k + 1 : ℕ) + 1 ∨ i = -((k + 1 : ℕ) : ℤ) - 1) with rfl | rfl
      · rcases eq_or_lt_of_le hmn with rfl | hlt
        · exact (end4_err h0 hu1 ha hcs (by omega) (by omega) (hW.end4 (k + 1 : ℕ) (by omega) (by omega)) (i0 _ _ (by omega) (by omega) le_rfl) (i1 _ _ (by omega) (by push_cast; omega) (by omega))).trans fin
        · exact (step4_err h0 hu1 ha hcs (by omega) (by omega) (by push_cast; omega) hlt (hW.step4 (k + 1 : ℕ) m (by omega) (by omega) (by push_cast; omega) hlt) (i0 _ _ (by omega) (by omega) hmn)
            (i1 _ _ (by omega) (by push_cast; omega) (by omega)) (i1 _ _ (by omega) (by push_cast; omega) (by omega))).trans fin
      · have hr : |dnm n (-((k + 1 : ℕ) : ℤ))| ≤ 3 / 2 * |dnm n (-((k + 1 : ℕ) : ℤ) - 1)| := by
          rw [dnm_neg, show -((k + 1 : ℕ) : ℤ) = -(((k + 1 : ℕ) : ℤ) - 1) - 1 by ring, dnm_neg]
          exact dnm_prev n (by omega) (by omega)
        rcases eq_or_lt_of_le hmn with rfl | hlt
        · exact (end5_err h0 hu1 ha hcs (by omega) (by omega) hr (hW.end5 (k + 1 : ℕ) (by omega) (by omega)) (i0 _ _ (by omega) (by omega) le_rfl) (i1 _ _ (by omega) (by push_cast; omega) (by omega))).trans fin
        · exact (step5_err h0 hu1 ha hcs (by omega) (by omega) (by push_cast; omega) hlt hr (hW.step5 (k + 1 : ℕ) m (by omega) (by omega) (by push_cast; omega) hlt) (i0 _ _ (by omega) (by omega) hmn)
            (i1 _ _ (by omega) (by push_cast; omega) (by omega)) (i1 _ _ (by omega) (by push_cast; omega) (by omega))).trans fin

/-! ## The copies -/

/-- What `copy_tri` does to one cell when the mirrored cell is zero or the same. -/
theorem copy_off (h0 : 0 ≤ u) (hu : u < 1) (ha : Accurate a u e) {x s v : ℝ} (hs : a.op x s) (hv : a.op s v) : |v - x| ≤ relErr u 3 * |x| := by
  have k := op_upTo h0 hu ha (grow_one_le h0 hu 1) (by simpa using op_upTo h0 hu ha le_rfl (UpTo.refl le_rfl) hs) hv
  rw [grow_add hu] at k
  have := (k.within (grow_one_le h0 hu _)).2
  rw [Real.norm_eq_abs, grow, add_sub_cancel_left] at this
  exact this.trans (mul_le_mul_of_nonneg_right (relErr_mono h0 hu (by omega)) (abs_nonneg _))

theorem copy_diag (h0 : 0 ≤ u) (hu : u < 1) (ha : Accurate a u e) {x s v : ℝ} (hs : a.op (x + x) s) (hv : a.op (s - x) v) : |v - x| ≤ relErr u 3 * |x| := by
  have h1 := ha.op _ _ hs
  have h2 := ha.op _ _ hv
  rw [← two_mul, abs_mul, abs_two] at h1
  have h3 : |s - x - x| ≤ 2 * u * |x| := by rw [show s - x - x = s - 2 * x by ring]; linarith
  have h4 : |s - x| ≤ (1 + 2 * u) * |x| := by
    calc |s - x| = |(s - x - x) + x| := by congr 1; ring
      _ ≤ |s - x - x| + |x| := abs_add_le _ _
      _ ≤ _ := by linarith
  have h5 : |v - x| ≤ (3 * u + 2 * u ^ 2) * |x| := by
    calc |v - x| = |(v - (s - x)) + (s - x - x)| := by congr 1; ring
      _ ≤ |v - (s - x)| + |s - x - x| := abs_add_le _ _
      _ ≤ u * ((1 + 2 * u) * |x|) + 2 * u * |x| := add_le_add (h2.trans (mul_le_mul_of_nonneg_left h4 h0)) h3
      _ = _ := by ring
  refine h5.trans (mul_le_mul_of_nonneg_right ?_ (abs_nonneg _))
  have hp : 0 < (1 - u) ^ 3 := pow_pos (by linarith) 3
  rw [relErr, le_sub_iff_add_le, le_inv_comm₀ (by positivity) hp, inv_eq_one_div, le_div_iff₀ (by positivity)]
  nlinarith [mul_nonneg h0 h0, mul_nonneg (mul_nonneg h0 h0) h0, mul_nonneg (mul_nonneg h0 h0) (sub_nonneg.2 hu.le), mul_nonneg (mul_nonneg (mul_nonneg h0 h0) h0) (sub_nonneg.2 hu.le)]

theorem op_zero (ha : Accurate a u e) {y : ℝ} (h : a.op 0 y) : y = 0 := by
  have := ha.op _ _ h
  simpa using this

theorem near_exact {x v t E : ℝ} (h0 : 0 ≤ u) (hu : u < 1) (ht : |t| ≤ 1) (h : |x - t| ≤ E) (hv : |v - x| ≤ relErr u 3 * |x|) : |v - t| ≤ grow u 3 * (1 + E) - 1 := by
  have p := relErr_nonneg h0 hu 3
  have h1 : |x| ≤ 1 + E := by
    calc |x| = |(x - t) + t| := by congr 1; ring
      _ ≤ |x - t| + |t| := abs_add_le _ _
      _ ≤ 1 + E := by linarith
  calc |v - t| = |(v - x) + (x - t)| := by congr 1; ring
    _ ≤ |v - x| + |x - t| := abs_add_le _ _
    _ ≤ relErr u 3 * (1 + E) + E := add_le_add (hv.trans (mul_le_mul_of_nonneg_left h1 p)) h
    _ = _ := by rw [grow]; ring

theorem copies_err (h0 : 0 ≤ u) (hu : u < 1) (ha : Accurate a u e) {n : ℕ} {c s E : ℝ} (hcs : c ^ 2 + s ^ 2 = 1) {W H : CMat}
    (hz : ∀ i j : ℤ, ¬((i.natAbs : ℤ) ≤ j ∧ j ≤ n) → W i j = 0) (hW : ∀ i j : ℤ, (i.natAbs : ℤ) ≤ j → j ≤ n → |W i j - Ht n c s i j| ≤ E) (hH : Copies a n W H)
    {i j : ℤ} (hi : i.natAbs ≤ n) (hj : j.natAbs ≤ n) : |H i j - Ht n c s i j| ≤ grow u 6 * (1 + E) - 1 := by
  obtain ⟨M, M', h1, h2, rfl⟩ := hH
  have T1 : ∀ {i j : ℤ}, i.natAbs ≤ n → j.natAbs ≤ n → |Ht n c s i j| ≤ 1 := fun p q => Ht_abs_le hcs p q
  have K : ∀ i j : ℤ, i.natAbs ≤ n → j.natAbs ≤ n → (0 ≤ i + j → |M i j - Ht n c s i j| ≤ grow u 3 * (1 + E) - 1) ∧ (i + j < 0 → M i j = 0) := fun i j hi hj => by
    obtain ⟨t, ht, hv⟩ := h1 i j hi hj
    refine ⟨fun h => ?_, fun h => ?_⟩
    · rcases lt_trichotomy i j with g | g | g
      · rw [hz j i (by omega), add_zero] at ht
        rw [if_neg (by omega), sub_zero] at hv
        exact near_exact h0 hu (T1 hi hj) (hW i j (by omega) (by omega)) (copy_off h0 hu ha ht hv)
      · subst g
        rw [if_pos rfl] at hv
        exact near_exact h0 hu (T1 hi hj) (hW i i (by omega) (by omega)) (copy_diag h0 hu ha ht hv)
      · rw [hz i j (by omega), zero_add] at ht
        rw [if_neg (by omega), sub_zero] at hv
        rw [Ht_symm n i j hi hj]
        exact near_exact h0 hu (T1 hj hi) (hW j i (by omega) (by omega)) (copy_off h0 hu ha ht hv)
    · rw [hz j i (by omega), hz i j (by omega), add_zero] at ht
      have t0 := op_zero ha ht
      subst t0
      have : (if i = j then W i i else 0) = 0 := by
        split_ifs with g
        · exact hz i i (by omega)
        · rfl
      rw [this, sub_zero] at hv
      exact op_zero ha hv
  have fin : grow u 3 * (1 + (grow u 3 * (1 + E) - 1)) - 1 = grow u 6 * (1 + E) - 1 := by
    rw [← show grow u (3 + 3) = grow u 6 from rfl, ← grow_add hu]; ring
  rw [← fin]
  obtain ⟨t, ht, hv⟩ := h2 j (-i) (by omega) (by omega)
  simp only [rot90inv, neg_neg] at ht hv
  rw [rot90]
  rcases lt_trichotomy 0 (i + j) with g | g | g
  · rw [(K (-j) (-i) (by omega) (by omega)).2 (by omega), add_zero] at ht
    rw [if_neg (by omega), sub_zero] at hv
    exact near_exact h0 hu (T1 hi hj) ((K i j hi hj).1 (by omega)) (copy_off h0 hu ha ht hv)
  · obtain rfl : j = -i := by omega
    rw [if_pos rfl] at hv
    simp only [neg_neg] at ht hv
    exact near_exact h0 hu (T1 hi hj) ((K i (-i) hi hj).1 (by omega)) (copy_diag h0 hu ha ht hv)
  · rw [(K i j hi hj).2 (by omega), zero_add] at ht
    rw [if_neg (by omega), sub_zero] at hv
    rw [← Ht_neg n i j hi hj]
    exact near_exact h0 hu (T1 (by omega) (by omega)) ((K (-j) (-i) (by omega) (by omega)).1 (by omega)) (copy_off h0 hu ha ht hv)

/-! ## The matrices -/

theorem rec_err (h0 : 0 ≤ u) (hu : u ≤ 1 / 1000) (ha : Accurate a u e) (hU : UnitSafe a) {leg : Leg} {eps : ℝ} {p n : ℕ} (hL : LegAccurate leg (n + 1) eps) (hn : n ≤ p)
    {beta d : ℝ} (hb : 0 ≤ beta) (hb' : beta ≤ Real.pi) (hd : AngleAccuracy u beta d) {H : ℕ → CMat} (hH : Flt.rotate_H_recurs a leg p beta H) {i j : ℤ} (hi : i.natAbs ≤ n) (hj : j.natAbs ≤ n) :
    |H n i j - Ht n (Real.cos (beta / 2)) (Real.sin (beta / 2)) i j| ≤ recErr u eps d n := by
  obtain ⟨hp, cb, sb, row, hcb, hsb, hst, hz, hw⟩ := hH
  have hu1 : u < 1 := by linarith
  have hs : 0 ≤ Real.sin beta := Real.sin_nonneg_of_nonneg_of_le_pi hb hb'
  have hε := startErr_nonneg h0 hu1 hL.1 hd.1 n
  have S : ∀ k m : ℕ, k ≤ n + 1 → m ≤ k → |row k m - Ht k (Real.cos (beta / 2)) (Real.sin (beta / 2)) 0 m| ≤ startErr u eps d n :=
    fun k m hk hm => start_err h0 hu1 ha hU hL hm hk hb hb' hd hcb (hst k m (by omega) hm)
  rw [recErr]
  rcases Nat.eq_zero_or_pos n with rfl | hn0
  · obtain rfl : i = 0 := by omega
    obtain rfl : j = 0 := by omega
    rw [hz]
    have := S 0 0 (by omega) le_rfl
    rw [Nat.cast_zero] at this
    refine this.trans ?_
    rw [pow_zero]; linarith
  · obtain ⟨W, hW, hC⟩ := hw n hn0 hn
    have b0 : 0 ≤ 5 / 2 * startErr u eps d n + 32 * u := by linarith
    have K := wedge_err h0 hu ha hn0 hε hs hcb hsb hW (fun m hm => S n m (by omega) hm) (fun m hm => S (n + 1) m le_rfl hm)
    have K' : ∀ i j : ℤ, (i.natAbs : ℤ) ≤ j → j ≤ n → |W i j - Ht n (Real.cos (beta / 2)) (Real.sin (beta / 2)) i j| ≤ 3 ^ n * (5 / 2 * startErr u eps d n + 32 * u) :=
      fun i j g1 g2 => (K i.natAbs i j rfl g1 g2).trans (mul_le_mul_of_nonneg_right (pow_le_pow_right₀ (by norm_num) (by omega)) b0)
    refine (copies_err h0 hu1 ha (Real.cos_sq_add_sin_sq _) hW.zero K' hC hi hj).trans ?_
    have g6 : relErr u 6 ≤ 6.13 * u := (relErr_le h0 (by push_cast; linarith)).trans (by push_cast; linarith)
    have p6 := relErr_nonneg h0 hu1 6
    have hP : (1 : ℝ) * 3 ≤ 3 ^ n := by
      calc (1 : ℝ) * 3 = 3 ^ 1 := by norm_num
        _ ≤ 3 ^ n := pow_le_pow_right₀ (by norm_num) hn0
    set P : ℝ := 3 ^ n with hPd
    set ε := startErr u eps d n with hεd
    rw [grow]
    have q1 : relErr u 6 * (P * (5 / 2 * ε + 32 * u)) ≤ 0.00613 * (P * (5 / 2 * ε + 32 * u)) := mul_le_mul_of_nonneg_right (by linarith) (by positivity)
    have q2 : u * 3 ≤ u * P := mul_le_mul_of_nonneg_left (by linarith) h0
    have q3 : 0 ≤ P * ε := by positivity
    nlinarith

end Newt
