import Verif.Proofs.Torque

/-!
# Properties C30, C31, C28 (torque), C50, C51, C52
-/

namespace Newt

open Spec

/-! ## C30 -/

/-- C30: for arrays with the reality symmetry, the torque array is conjugate-symmetric, the cosine
amplitudes are the real numbers `2 Re sum_l n_lk` and the sine amplitudes the imaginary numbers
`2 i Im sum_l n_lk`, for every order `k`. -/
theorem C30_reality {L : ℕ} (q Q : Mom L) (hq : Sym q) (hQ : Sym Q) (G : ℝ) :
    let t := torque_lm q Q G
    (∀ (l : ℕ) (m : ℤ), l ≤ L → m.natAbs ≤ L → t.nlm.get l (-m) = (starRingEnd ℂ) (t.nlm.get l m)) ∧
    t.nc.length = L + 1 ∧ t.ns.length = L + 1 ∧
    ∀ k : ℕ, k ≤ L →
      t.nc.getD k 0 = ((2 * (∑ l ∈ Finset.range (L + 1), t.nlm.get l k).re : ℝ) : ℂ) ∧
      t.ns.getD k 0 = ((2 * (∑ l ∈ Finset.range (L + 1), t.nlm.get l k).im : ℝ) : ℂ) * Complex.I := by
  have h : ConjCols (torque_lm q Q G).nlm := by
    rw [torque_lm_fin]; exact finN_conj G q _ hq (weightLM_asym Q hQ)
  refine ⟨h, by simp [torque_lm, torqueOut], by simp [torque_lm, torqueOut], fun k hk => ?_⟩
  have h2 := colSum_neg h k (by omega)
  constructor
  · rw [getD_lt _ _ (by simp [torque_lm, torqueOut]; omega), ← Complex.add_conj]
    change _ = colSum (torque_lm q Q G).nlm k + (starRingEnd ℂ) (colSum (torque_lm q Q G).nlm k)
    rw [← h2]
    simp [torque_lm, torqueOut]
  · rw [getD_lt _ _ (by simp [torque_lm, torqueOut]; omega), ← Complex.sub_conj]
    change _ = colSum (torque_lm q Q G).nlm k - (starRingEnd ℂ) (colSum (torque_lm q Q G).nlm k)
    rw [← h2]
    simp [torque_lm, torqueOut]

/-- C30: hence the cosine amplitudes are real and the sine amplitudes imaginary. -/
theorem C30_real_imag {L : ℕ} (q Q : Mom L) (hq : Sym q) (hQ : Sym Q) (G : ℝ) (k : ℕ) (hk : k ≤ L) :
    ((torque_lm q Q G).nc.getD k 0).im = 0 ∧ ((torque_lm q Q G).ns.getD k 0).re = 0 := by
  obtain ⟨_, _, _, h⟩ := C30_reality q Q hq hQ G
  rw [(h k hk).1, (h k hk).2]
  simp

/-- C30: every entry of the torque array is `-4 pi i G m q_lm Q_lm / (2l+1)`; the monopole and all
axisymmetric entries exert no torque. -/
theorem C30_entries {L : ℕ} (q Q : Mom L) (G : ℝ) (l : ℕ) (m : ℤ) (hl : l ≤ L) (hm : m.natAbs ≤ L) :
    (torque_lm q Q G).nlm.get l m =
      -4 * Real.pi * Complex.I * G * (m / (2 * l + 1)) * q.get l m * Q.get l m ∧
    (torque_lm q Q G).nlm.get l 0 = 0 := by
  constructor
  · simp only [torque_lm, torqueOut]
    rw [Mom.get_ofFn _ hl hm]; push_cast; ring
  · simp only [torque_lm, torqueOut]
    rw [Mom.get_ofFn _ hl (by simp)]; simp

/-- C30: arrays of different degrees are rejected (numpy cannot broadcast them) unless one of them is
a bare monopole, and then all torques are zero. -/
theorem C30_degree_mismatch {L1 L2 : ℕ} (q : Mom L1) (Q : Mom L2) (G : ℝ) (h : L1 ≠ L2) :
    (torque_lm_any q Q G = none ↔ 1 ≤ L1 ∧ 1 ≤ L2) ∧
    (∀ r, torque_lm_any q Q G = some r → r.1 = max L1 L2 ∧ ∀ (l : ℕ) (m : ℤ), r.2.get l m = 0) := by
  rw [torque_lm_any, dif_neg h]
  constructor
  · split_ifs with h0
    · simp; omega
    · simp; omega
  · intro r hr
    split_ifs at hr with h0
    · rw [Option.some.injEq] at hr
      subst hr
      refine ⟨rfl, fun l m => ?_⟩
      simp [Mom.get, Mom.ofFn]

/-- non-vacuity of C30: moments of a point array have the symmetry -/
example : Sym (Mom.ofFn 2 (innerMoment [⟨1, ![1, 0, 0]⟩])) ∧ Sym (Mom.ofFn 2 (outerMoment [⟨1, ![3, 4, 0]⟩])) :=
  ⟨(innerMoment_valid 2 _).1, (outerMoment_valid 2 _).1⟩

/-! ## C31 -/

/-- The weighted cell sum is the derivative of the pair sum. -/
theorem pairSum_cell {L : ℕ} (q Q : Mom L) (hq : Tri q) :
    pairSum q Q = ∑ l ∈ Finset.range (L + 1), ∑ m ∈ Finset.Icc (-(L : ℤ)) L, q.get l m * Q.get l m / (2 * l + 1) := by
  rw [pairSum]
  apply Finset.sum_congr rfl
  intro l hl
  rw [Finset.mem_range] at hl
  apply Finset.sum_subset (Finset.Icc_subset_Icc (by omega) (by omega))
  intro m hm hm'
  rw [Finset.mem_Icc] at hm hm'
  rw [hq l m (by omega) (by omega) (by omega)]; simp

theorem hasDeriv_pairSum {L : ℕ} (q Q : Mom L) (hq : Valid q) (s phi : ℝ) :
    HasDerivAt (fun psi : ℝ => pairSum (rotM (s * psi) 0 0 q) Q)
      (-Complex.I * s * cellSum (rotM (s * phi) 0 0 q) (weightLM Q)) phi := by
  have h1 : ∀ psi : ℝ, pairSum (rotM (s * psi) 0 0 q) Q = ∑ l ∈ Finset.range (L + 1),
      ∑ m ∈ Finset.Icc (-(L : ℤ)) L,
        Complex.exp (-Complex.I * m * s * psi) * (q.get l m * Q.get l m / (2 * l + 1)) := by
    intro psi
    rw [pairSum_cell _ _ (rotM_valid q hq _ _ _).2]
    apply Finset.sum_congr rfl
    intro l hl
    apply Finset.sum_congr rfl
    intro m hm
    rw [Finset.mem_range] at hl
    rw [Finset.mem_Icc] at hm
    rw [rotM_z q _ hq.2 l m (by omega) (by omega)]
    push_cast; ring_nf
  simp only [h1]
  rw [cellSum, Finset.mul_sum]
  apply HasDerivAt.fun_sum
  intro l hl
  rw [Finset.mul_sum]
  apply HasDerivAt.fun_sum
  intro m hm
  rw [Finset.mem_range] at hl
  rw [Finset.mem_Icc] at hm
  rw [rotM_z q _ hq.2 l m (by omega) (by omega), weightLM, Mom.get_ofFn _ (by omega) (by omega)]
  have h2 : HasDerivAt (fun psi : ℝ => Complex.exp (-Complex.I * m * s * psi))
      (Complex.exp (-Complex.I * m * s * phi) * (-Complex.I * m * s)) phi := by
    have h3 : HasDerivAt (fun psi : ℝ => -Complex.I * m * s * (psi : ℂ)) (-Complex.I * m * s * 1) phi :=
      (HasDerivAt.ofReal_comp (hasDerivAt_id phi)).const_mul _
    simpa using h3.cexp
  refine (h2.mul_const _).congr_deriv ?_
  push_cast
  ring_nf

/-- Real part of a complex derivative along the reals. -/
theorem hasDerivAt_re {f : ℝ → ℂ} {f' : ℂ} {x : ℝ} (h : HasDerivAt f f' x) :
    HasDerivAt (fun t => (f t).re) f'.re x :=
  (Complex.reCLM.hasFDerivAt.comp_hasDerivAt x h)

theorem pairSum_real {L : ℕ} (q Q : Mom L) (hq : Sym q) (hQ : Sym Q) : (((pairSum q Q).re : ℝ) : ℂ) = pairSum q Q := by
  rw [← Complex.conj_eq_iff_re, pairSum, map_sum]
  apply Finset.sum_congr rfl
  intro l hl
  rw [Finset.mem_range] at hl
  rw [map_sum, ← sum_Icc_neg]
  apply Finset.sum_congr rfl
  intro m hm
  rw [Finset.mem_Icc] at hm
  have e1 := hq l m (by omega) (by omega)
  have e2 := hQ l m (by omega) (by omega)
  rw [e1, e2]
  simp only [map_div₀, map_mul, map_pow, map_neg, map_one, Complex.conj_conj, map_add, map_natCast, map_ofNat]
  rw [show ∀ a b c d : ℂ, a * b * (a * c) / d = a * a * (b * c / d) by intros; ring, sq_one, one_mul]

/-- C31: the value of `torques_at_angle` on the amplitudes returned by `torque_lm` is minus the
derivative, with respect to the turn angle, of the interaction energy of the inner body turned about
the z axis. -/
theorem C31_torque_is_energy_derivative {L : ℕ} (q Q : Mom L) (hq : Valid q) (hQ : Valid Q) (G phi : ℝ) :
    ∃ (t : ℝ) (E : ℝ → ℝ),
      torques_at_angle (torque_lm q Q G).nc (torque_lm q Q G).ns phi false = some t ∧
      (∀ psi, ∃ q', rotate_qlm q psi 0 0 = some q' ∧ (E psi : ℂ) = multipoleEnergy G q' Q) ∧
      HasDerivAt E (-t) phi := by
  obtain ⟨t, h1, h2⟩ := torque_lm_angle G q Q hq hQ phi false
  refine ⟨t, fun psi => -4 * Real.pi * G * (pairSum (rotM psi 0 0 q) Q).re, h1, fun psi => ?_, ?_⟩
  · refine ⟨_, rotate_qlm_rotM q psi 0 0, ?_⟩
    rw [multipoleEnergy, ← pairSum_real _ _ (rotM_valid q hq _ _ _).1 hQ.1]
    push_cast; ring
  · have h3 := hasDeriv_pairSum q Q hq 1 phi
    simp only [one_mul] at h3
    refine ((hasDerivAt_re h3).const_mul (-4 * Real.pi * G)).congr_deriv ?_
    simp only [Bool.false_eq_true, if_false, one_mul] at h2
    have h4 : -t = (-(t : ℂ)).re := by simp
    rw [h4, h2, ← Complex.re_ofReal_mul]
    congr 1
    push_cast; ring

/-- C31, outer flag: with `outer=True` the returned value is (plus) the derivative of the interaction
energy with respect to the angle by which the *outer* body is turned about z, i.e. the torque on the
inner body while the source turns (outer moments turn with the opposite phase). -/
theorem C31_outer {L : ℕ} (q Q : Mom L) (hq : Valid q) (hQ : Valid Q) (G phi : ℝ) :
    ∃ (t : ℝ) (E : ℝ → ℝ),
      torques_at_angle (torque_lm q Q G).nc (torque_lm q Q G).ns phi true = some t ∧
      (∀ psi, ∃ Q', rotate_qlm Q (-psi) 0 0 = some Q' ∧ (E psi : ℂ) = multipoleEnergy G q Q') ∧
      HasDerivAt E t phi := by
  obtain ⟨t, h1, h2⟩ := torque_lm_angle G q Q hq hQ phi true
  refine ⟨t, fun psi => -4 * Real.pi * G * (pairSum (rotM (-1 * psi) 0 0 q) Q).re, h1, fun psi => ?_, ?_⟩
  · refine ⟨_, rotate_qlm_rotM Q (-psi) 0 0, ?_⟩
    rw [multipoleEnergy, ← pairSum_real _ _ hq.1 (rotM_valid Q hQ _ _ _).1]
    have : pairSum (rotM (-1 * psi) 0 0 q) Q = pairSum q (rotM (-psi) 0 0 Q) := by
      rw [pairSum, pairSum]
      apply Finset.sum_congr rfl
      intro l hl
      apply Finset.sum_congr rfl
      intro m hm
      rw [Finset.mem_range] at hl
      rw [Finset.mem_Icc] at hm
      rw [rotM_z q _ hq.2 l m (by omega) (by omega), rotM_z Q _ hQ.2 l m (by omega) (by omega), neg_one_mul]
      ring
    simp only [this]
    push_cast; ring
  · have h3 := hasDeriv_pairSum q Q hq (-1) phi
    refine ((hasDerivAt_re h3).const_mul (-4 * Real.pi * G)).congr_deriv ?_
    simp only [if_true] at h2
    have h4 : t = (t : ℂ).re := by simp
    rw [h4, h2, ← Complex.re_ofReal_mul]
    congr 1
    push_cast; ring

/-- C31: `torques_at_angle` fails exactly for empty amplitudes or too few sine amplitudes. -/
theorem C31_fails_iff (tc ts : List ℂ) (phi : ℝ) (outer : Bool) :
    torques_at_angle tc ts phi outer = none ↔ tc = [] ∨ ts.length < tc.length := by
  rw [torques_at_angle]
  split_ifs with h
  · simp [h]
  · simp [h]

/-! ## C50-C52: the torque routine with motion -/

theorem rotate_Ds_some {L : ℕ} (hL : 1 ≤ L) (alpha beta gamma : ℝ) :
    ∃ ds, wignerDl L alpha beta gamma = some ds ∧ ∀ q w : Mom L,
      cellSum q (rotate_qlm_Ds_right w ds false) = cellSum (rotM alpha beta gamma q) w ∧
      cellSum q (rotate_qlm_Ds_right w ds true) = cellSum (rotM (-gamma) (-beta) (-alpha) q) w ∧
      (ASym w → ∀ c, ASym (rotate_qlm_Ds_right w ds c)) := by
  obtain ⟨ds, h1, h2⟩ := rotate_Ds_rotM (L := L) hL alpha beta gamma
  refine ⟨ds, h1, fun q w => ⟨?_, ?_, fun hw c => Ds_right_asym hL _ _ _ ds h1 w hw c⟩⟩
  · rw [← cellSum_Ds, (h2 q).1]
  · rw [← cellSum_Ds, (h2 q).2]

theorem apply_right_some {L : ℕ} (w : Mom L) (hw : ASym w) (e : List (ℕ → ℕ → ℝ)) (he : e.length = L + 1) (b : Bool) :
    ∃ w', trr.apply_trans_mat_right w e b = some w' ∧ ASym w' ∧
      ∀ q q', trr.apply_trans_mat q e b = some q' → cellSum q w' = cellSum q' w := by
  refine ⟨_, (apply_tmat w e he b).2, apply_right_asym w _ hw e b (apply_tmat w e he b).2, fun q q' h => ?_⟩
  obtain ⟨q1, w1, h1, h2, h3⟩ := cellSum_apply q w e he b
  rw [h, Option.some.injEq] at h1
  rw [(apply_tmat w e he b).2, Option.some.injEq] at h2
  rw [h1, h2, h3]

theorem translate_eq_closed {L : ℕ} (q : Mom L) (d : V3) (hd : d ≠ 0) (hq : Valid q) :
    Mom.ofFn L (trInner q d) = translate_qlm q d := (translate_qlm_closed q hq d).symm

/-- C50: `torque` with `'inner-inner'`: the amplitudes returned, evaluated at the angle `phi`, are
the torque about the z axis on the body whose moments are `q` turned by `phi` about z, then rotated
by the Euler angles, then translated by `rvec`, in the field `Q`. -/
theorem C50_inner_inner {L : ℕ} (hL : 1 ≤ L) (q Q : Mom L) (hq : Valid q) (hQ : Valid Q)
    (alpha beta gamma : ℝ) (d : V3) (G phi : ℝ) :
    ∃ (t : TorqueOut L) (q1 q2 : Mom L) (tau : ℝ),
      torque q Q alpha beta gamma d "inner-inner" G = some t ∧
      rotate_qlm q phi 0 0 = some q1 ∧ rotate_qlm q1 alpha beta gamma = some q2 ∧
      torques_at_angle t.nc t.ns phi false = some tau ∧
      torques_at_angle (torque_lm (translate_qlm q2 d) Q G).nc (torque_lm (translate_qlm q2 d) Q G).ns
        0 false = some tau := by
  -- it suffices to produce the adjoint of the motion
  have key : ∃ w, torque q Q alpha beta gamma d "inner-inner" G = some (torqueOut (finN G q w)) ∧ ASym w ∧
      ∀ p, Valid p → cellSum p w = cellSum (translate_qlm (rotM alpha beta gamma p) d) (weightLM Q) := by
    obtain ⟨dR, hR, hR2⟩ := rotate_Ds_some (L := L) hL alpha beta gamma
    have hwQ := weightLM_asym Q hQ.1
    rw [torque]
    simp only [true_or, if_true, hR, Option.bind_eq_bind, Option.bind_some]
    by_cases h0 : rPOf d = 0
    · rw [if_pos h0]
      refine ⟨_, rfl, (hR2 q _).2.2 hwQ false, fun p hp => ?_⟩
      rw [(hR2 p _).1, (rPOf_eq_zero d).1 h0, C19_zero]
    · have hd : d ≠ 0 := fun e => h0 ((rPOf_eq_zero d).2 e)
      rw [if_neg h0]
      by_cases h2 : rPOf d = d 2
      · rw [if_pos h2]
        obtain ⟨w1, hw1, hw2, hw3⟩ := apply_right_some (weightLM Q) hwQ
          (trr.transl_newt_z_RR L (rPOf d)) (RR_length _ _) false
        rw [hw1]
        refine ⟨_, rfl, (hR2 q _).2.2 hw2 false, fun p hp => ?_⟩
        rw [(hR2 p _).1, hw3 _ _ (apply_RR _ _ h0), h2, ← onAxis_vec ((onAxis_iff d).2 h2),
          translate_eq_closed _ d hd (rotM_valid p hp _ _ _)]
      · rw [if_neg h2]
        obtain ⟨ds, hs, hs2⟩ := rotate_Ds_some (L := L) hL (-phiPOf d) (-thetaPOf d) (-phiPOf d)
        rw [hs]
        simp only [Option.bind_some]
        obtain ⟨w1, hw1, hw2, hw3⟩ := apply_right_some _ ((hs2 q _).2.2 hwQ true)
          (trr.transl_newt_z_RR L (rPOf d)) (RR_length _ _) false
        rw [hw1]
        refine ⟨_, rfl, (hR2 q _).2.2 ((hs2 q _).2.2 hw2 false) false, fun p hp => ?_⟩
        rw [(hR2 p _).1, (hs2 _ _).1, hw3 _ _ (apply_RR _ _ h0), (hs2 _ _).2.1, ← eul_to_z d hd, ← rotM_inner,
          rotM_inv, translate_eq_closed _ d hd (rotM_valid p hp _ _ _)]
  obtain ⟨w, k1, k2, k3⟩ := key
  obtain ⟨tau, a1, a2⟩ := finN_angle G q w hq k2 phi false
  have hq1 := rotM_valid q hq phi 0 0
  have hq2 := rotM_valid _ hq1 alpha beta gamma
  obtain ⟨tau', b1, b2⟩ := torque_lm_zero G _ Q (translate_qlm_valid _ hq2 d) hQ
  refine ⟨_, _, _, tau, k1, rotate_qlm_rotM q phi 0 0, rotate_qlm_rotM _ alpha beta gamma, a1, ?_⟩
  simp only [Bool.false_eq_true, if_false, one_mul] at a2
  rw [k3 _ hq1] at a2
  have : tau = tau' := by exact_mod_cast a2.trans b2.symm
  rw [b1, this]

theorem fO_neg (j : ℕ) (c : ℤ) (d : V3) : fO j (-c) d = (-1) ^ c.natAbs * (starRingEnd ℂ) (fO j c d) := by
  rw [fO, fO, Nlm_neg, Rsol_neg']
  simp only [map_mul, map_div₀, map_pow, map_neg, map_one, Complex.conj_conj, Complex.conj_ofReal, map_add,
    map_natCast, map_ofNat]
  ring

/-- The inner-to-outer translation keeps arrays valid. -/
theorem trQ_valid {L : ℕ} (q : Mom L) (hq : Valid q) (d : V3) : Valid (Mom.ofFn L (trQ q d)) := by
  apply valid_ofFn
  · intro l m hl hm
    rw [trQ, trQ, Int.natAbs_neg]
    split_ifs with h
    · rw [map_mul, map_div₀, Complex.conj_ofReal, Nlm_neg, map_sum]
      simp only [map_add, map_mul, map_one, map_natCast, map_ofNat]
      rw [mul_left_comm]
      congr 1
      rw [Finset.mul_sum]
      apply Finset.sum_congr rfl
      intro k hk
      rw [Finset.mem_range] at hk
      rw [map_sum, Finset.mul_sum, ← sum_Icc_neg]
      apply Finset.sum_congr rfl
      intro n hn
      rw [Finset.mem_Icc] at hn
      rw [← neg_add, fO_neg, hq.1 k n (by omega) (by omega), Nlm_neg]
      simp only [map_mul, map_div₀, map_pow, map_neg, map_one, Complex.conj_ofReal]
      have e1 := pow_natAbs_sub (m + n) n
      rw [add_sub_cancel_right] at e1
      rw [← e1]
      linear_combination ((-1 : ℂ) ^ k * (-1) ^ m.natAbs * (starRingEnd ℂ) (fO (l + k) (m + n) d) *
        ((starRingEnd ℂ) (q.get k n) / (Nlm k n : ℂ))) * sq_one n.natAbs
    · simp
  · intro l m hl h
    rw [trQ, if_neg (by omega)]

/-- C50: `torque` with `'inner-outer'`, displacement off the +z axis: `Q` are the inner moments of the
source in its own frame; turned by `phi`, rotated by the Euler angles and translated by `rvec` to
outer moments, they exert the returned torque on the body `q`. -/
theorem C50_inner_outer {L : ℕ} (hL : 1 ≤ L) (q Q : Mom L) (hq : Valid q) (hQ : Valid Q)
    (alpha beta gamma : ℝ) (d : V3) (hd : ¬ OnAxis d) (G phi : ℝ) :
    ∃ (t : TorqueOut L) (Q1 Q2 Q3 : Mom L) (tau : ℝ),
      torque q Q alpha beta gamma d "inner-outer" G = some t ∧
      rotate_qlm Q phi 0 0 = some Q1 ∧ rotate_qlm Q1 alpha beta gamma = some Q2 ∧
      translate_q2Q Q2 d = some Q3 ∧
      torques_at_angle t.nc t.ns phi false = some tau ∧
      torques_at_angle (torque_lm q Q3 G).nc (torque_lm q Q3 G).ns 0 false = some tau := by
  have hd0 : d ≠ 0 := fun e => hd (by subst e; exact ⟨rfl, rfl, le_rfl⟩)
  have h0 : rPOf d ≠ 0 := fun e => hd0 ((rPOf_eq_zero d).1 e)
  have hp : 0 < rPOf d := lt_of_le_of_ne (Real.sqrt_nonneg _) (Ne.symm h0)
  have key : ∃ w, torque q Q alpha beta gamma d "inner-outer" G = some (torqueOut (finN G w Q)) ∧ ASym w ∧
      ∀ P, cellSum P w = cellSum (Mom.ofFn L (trQ (rotM alpha beta gamma P) d)) (weightLM q) := by
    obtain ⟨dR, hR, hR2⟩ := rotate_Ds_some (L := L) hL alpha beta gamma
    have hwQ := weightLM_asym q hq.1
    rw [torque]
    have hs : ¬ ("inner-outer" = "inner-inner") := by decide
    simp only [or_true, true_or, hs, if_true, if_false, hR, Option.bind_eq_bind, Option.bind_some]
    rw [if_neg h0, if_neg (fun e => hd ((onAxis_iff d).2 e))]
    obtain ⟨ds, hs, hs2⟩ := rotate_Ds_some (L := L) hL (-phiPOf d) (-thetaPOf d) (-phiPOf d)
    obtain ⟨ds', hs', hs2'⟩ := rotate_Ds_some (L := L) hL (phiPOf d) (-thetaPOf d) (phiPOf d)
    rw [hs, hs']
    simp only [Option.bind_some]
    obtain ⟨w1, hw1, hw2, hw3⟩ := apply_right_some _ ((hs2' q _).2.2 hwQ true)
      (trr.transl_newt_z_SR L (rPOf d)) (SR_length _ _) true
    rw [hw1]
    refine ⟨_, rfl, (hR2 q _).2.2 ((hs2 q _).2.2 hw2 false) false, fun P => ?_⟩
    have h3 := rotM_q2Q (rotM alpha beta gamma P) d (-phiPOf d) (-thetaPOf d) (-phiPOf d)
    rw [neg_neg, eul_to_z d hd0] at h3
    rw [(hR2 P _).1, (hs2 _ _).1, hw3 _ _ (apply_SR _ _ hp), (hs2' _ _).2.1, ← h3, rotM_inv]
  obtain ⟨w, k1, k2, k3⟩ := key
  rw [finN_comm] at k1
  obtain ⟨tau, a1, a2⟩ := finN_angle G Q w hQ k2 phi false
  have hQ1 := rotM_valid Q hQ phi 0 0
  have hQ2 := rotM_valid _ hQ1 alpha beta gamma
  have e3 := translate_q2Q_closed (rotM alpha beta gamma (rotM phi 0 0 Q)) d hd0
  refine ⟨_, _, _, _, tau, k1, rotate_qlm_rotM Q phi 0 0, rotate_qlm_rotM _ alpha beta gamma, e3, a1, ?_⟩
  have hQ3 : Valid (Mom.ofFn L (trQ (rotM alpha beta gamma (rotM phi 0 0 Q)) d)) := trQ_valid _ hQ2 d
  obtain ⟨tau', b1, b2⟩ := torque_lm_zero G _ _ hq hQ3
  simp only [Bool.false_eq_true, if_false, one_mul] at a2
  rw [k3, cellSum_comm, ← cellSum_weight] at a2
  have : tau = tau' := by exact_mod_cast a2.trans b2.symm
  rw [b1, this]

theorem fliplr_valid {L : ℕ} (w : Mom L) (hw : Valid w) : Valid (trr.fliplr w) := by
  constructor
  · intro l m hl hm
    rw [trr.fliplr, Mom.get_ofFn _ hl (by omega), Mom.get_ofFn _ hl hm]
    have := hw.1 l (-m) hl (by omega)
    rwa [Int.natAbs_neg] at this
  · intro l m hl hm h
    rw [trr.fliplr, Mom.get_ofFn _ hl hm]
    exact hw.2 l (-m) hl (by omega) (by omega)

/-- C51: `torque` with `'inner-outer'` along the +z axis forgets to exchange the orders `m` and `-m`:
the returned torque is that of the *column-reversed* outer moments. -/
theorem C51_inner_outer_axis {L : ℕ} (hL : 1 ≤ L) (q Q : Mom L) (hq : Valid q) (hQ : Valid Q)
    (alpha beta gamma : ℝ) (d : V3) (hd : OnAxis d) (hd0 : d ≠ 0) (G phi : ℝ) :
    ∃ (t : TorqueOut L) (Q1 Q2 Q3 : Mom L) (tau : ℝ),
      torque q Q alpha beta gamma d "inner-outer" G = some t ∧
      rotate_qlm Q phi 0 0 = some Q1 ∧ rotate_qlm Q1 alpha beta gamma = some Q2 ∧
      translate_q2Q Q2 d = some Q3 ∧
      torques_at_angle t.nc t.ns phi false = some tau ∧
      torques_at_angle (torque_lm q (trr.fliplr Q3) G).nc (torque_lm q (trr.fliplr Q3) G).ns 0 false
        = some tau := by
  have h0 : rPOf d ≠ 0 := fun e => hd0 ((rPOf_eq_zero d).1 e)
  have hp : 0 < rPOf d := lt_of_le_of_ne (Real.sqrt_nonneg _) (Ne.symm h0)
  have h2 : rPOf d = d 2 := (onAxis_iff d).1 hd
  have key : ∃ w, torque q Q alpha beta gamma d "inner-outer" G = some (torqueOut (finN G w Q)) ∧ ASym w ∧
      ∀ P, cellSum P w = cellSum (trr.fliplr (Mom.ofFn L (trQ (rotM alpha beta gamma P) d))) (weightLM q) := by
    obtain ⟨dR, hR, hR2⟩ := rotate_Ds_some (L := L) hL alpha beta gamma
    have hwQ := weightLM_asym q hq.1
    rw [torque]
    have hs : ¬ ("inner-outer" = "inner-inner") := by decide
    simp only [or_true, true_or, hs, if_true, if_false, hR, Option.bind_eq_bind, Option.bind_some]
    rw [if_neg h0, if_pos h2]
    obtain ⟨w1, hw1, hw2, hw3⟩ := apply_right_some _ hwQ
      (trr.transl_newt_z_SR L (rPOf d)) (SR_length _ _) false
    rw [hw1]
    refine ⟨_, rfl, (hR2 q _).2.2 hw2 false, fun P => ?_⟩
    have e1 := (apply_tmat (rotM alpha beta gamma P) _ (SR_length L (rPOf d)) false).1
    have e2 := (apply_tmat (rotM alpha beta gamma P) _ (SR_length L (rPOf d)) true).1
    rw [apply_SR _ _ hp, if_pos rfl, Option.some.injEq, h2, ← onAxis_vec hd] at e2
    have e3 : trr.fliplr (Mom.ofFn L (trQ (rotM alpha beta gamma P) d)) =
        tmat (fun m => (trr.transl_newt_z_SR L (rPOf d)).getD m 0) (rotM alpha beta gamma P) := by
      rw [e2, h2]
      apply Mom.ext_get
      intro l m hl hm
      rw [trr.fliplr, trr.fliplr, Mom.get_ofFn _ hl hm, Mom.get_ofFn _ hl (by omega), neg_neg]
    rw [(hR2 P _).1, hw3 _ _ e1, if_neg (by simp), e3]
  obtain ⟨w, k1, k2, k3⟩ := key
  rw [finN_comm] at k1
  obtain ⟨tau, a1, a2⟩ := finN_angle G Q w hQ k2 phi false
  have hQ1 := rotM_valid Q hQ phi 0 0
  have hQ2 := rotM_valid _ hQ1 alpha beta gamma
  have e3 := translate_q2Q_closed (rotM alpha beta gamma (rotM phi 0 0 Q)) d hd0
  refine ⟨_, _, _, _, tau, k1, rotate_qlm_rotM Q phi 0 0, rotate_qlm_rotM _ alpha beta gamma, e3, a1, ?_⟩
  have hQ3 := fliplr_valid _ (trQ_valid _ hQ2 d)
  obtain ⟨tau', b1, b2⟩ := torque_lm_zero G _ _ hq hQ3
  simp only [Bool.false_eq_true, if_false, one_mul] at a2
  rw [k3, cellSum_comm, ← cellSum_weight] at a2
  have : tau = tau' := by exact_mod_cast a2.trans b2.symm
  rw [b1, this]

/-- The vector mirrored in the x-z plane. -/
def mirrorY (d : V3) : V3 := ![d 0, -d 1, d 2]

theorem mirrorY_rz (t : ℝ) (v : V3) : mirrorY (rz t v) = rz (-t) (mirrorY v) := by
  funext i
  fin_cases i <;> simp [mirrorY, rz] <;> ring

theorem mirrorY_ry (t : ℝ) (v : V3) : mirrorY (ry t v) = ry t (mirrorY v) := by
  funext i
  fin_cases i <;> simp [mirrorY, ry]

theorem eul_mirror (d : V3) (hd : d ≠ 0) :
    eul (phiPOf d) (-thetaPOf d) (phiPOf d) (mirrorY d) = ![0, 0, rPOf d] := by
  have h := congrArg mirrorY (eul_to_z d hd)
  rw [eul, mirrorY_rz, mirrorY_ry, mirrorY_rz, neg_neg] at h
  rw [eul, h]
  simp [mirrorY]

/-- C52: `torque` with `'outer-outer'`: the source, given by outer moments `Q`, is turned by `phi`,
rotated by the Euler angles (outer moments turn with conjugate phases) and then translated — but by
the vector `(x, -y, z)` mirrored in the x-z plane instead of `rvec = (x, y, z)`. -/
theorem C52_outer_outer {L : ℕ} (hL : 1 ≤ L) (q Q : Mom L) (hq : Valid q) (hQ : Valid Q)
    (alpha beta gamma : ℝ) (d : V3) (G phi : ℝ) :
    ∃ (t : TorqueOut L) (Q1 Q2 : Mom L) (tau : ℝ),
      torque q Q alpha beta gamma d "outer-outer" G = some t ∧
      rotate_qlm Q (-phi) 0 0 = some Q1 ∧ rotate_qlm Q1 (-alpha) beta (-gamma) = some Q2 ∧
      torques_at_angle t.nc t.ns phi true = some tau ∧
      torques_at_angle (torque_lm q (translate_Qlmb Q2 ![d 0, -d 1, d 2]) G).nc
        (torque_lm q (translate_Qlmb Q2 ![d 0, -d 1, d 2]) G).ns 0 false = some tau := by
  have key : ∃ w, torque q Q alpha beta gamma d "outer-outer" G = some (torqueOut (finN G w Q)) ∧ ASym w ∧
      ∀ P, Valid P →
        cellSum P w = cellSum (translate_Qlmb (rotM (-alpha) beta (-gamma) P) (mirrorY d)) (weightLM q) := by
    obtain ⟨dR, hR, hR2⟩ := rotate_Ds_some (L := L) hL (-alpha) beta (-gamma)
    have hwQ := weightLM_asym q hq.1
    rw [torque]
    have hs : ¬ ("outer-outer" = "inner-inner") := by decide
    have hs' : ¬ ("outer-outer" = "inner-outer") := by decide
    simp only [or_true, hs, hs', or_self, if_true, if_false, hR, Option.bind_eq_bind, Option.bind_some]
    by_cases h0 : rPOf d = 0
    · rw [if_pos h0]
      refine ⟨_, rfl, (hR2 q _).2.2 hwQ false, fun p hp => ?_⟩
      have : mirrorY d = 0 := by
        rw [(rPOf_eq_zero d).1 h0]; funext i; fin_cases i <;> simp [mirrorY]
      rw [(hR2 p _).1, this, C20_zero]
    · have hd : d ≠ 0 := fun e => h0 ((rPOf_eq_zero d).2 e)
      rw [if_neg h0]
      by_cases h2 : rPOf d = d 2
      · rw [if_pos h2]
        obtain ⟨w1, hw1, hw2, hw3⟩ := apply_right_some _ hwQ
          (trr.transl_newt_z_SS L (rPOf d)) (SS_length _ _) false
        rw [hw1]
        refine ⟨_, rfl, (hR2 q _).2.2 hw2 false, fun p hp => ?_⟩
        have ho := (onAxis_iff d).2 h2
        have hm : mirrorY d = d := by
          funext i; fin_cases i <;> simp [mirrorY, ho.2.1]
        rw [(hR2 p _).1, hw3 _ _ (apply_SS _ _ h0), h2, ← onAxis_vec ho, hm,
          ← translate_Qlmb_closed _ (rotM_valid p hp _ _ _) d]
      · rw [if_neg h2]
        obtain ⟨ds, hs, hs2⟩ := rotate_Ds_some (L := L) hL (-phiPOf d) (-thetaPOf d) (-phiPOf d)
        rw [hs]
        simp only [Option.bind_some]
        obtain ⟨w1, hw1, hw2, hw3⟩ := apply_right_some _ ((hs2 q _).2.2 hwQ true)
          (trr.transl_newt_z_SS L (rPOf d)) (SS_length _ _) false
        rw [hw1]
        refine ⟨_, rfl, (hR2 q _).2.2 ((hs2 q _).2.2 hw2 false) false, fun p hp => ?_⟩
        rw [(hR2 p _).1, (hs2 _ _).1, hw3 _ _ (apply_SS _ _ h0), (hs2 _ _).2.1, ← eul_mirror d hd, ← rotM_outer,
          rotM_inv, ← translate_Qlmb_closed _ (rotM_valid p hp _ _ _)]
  obtain ⟨w, k1, k2, k3⟩ := key
  rw [finN_comm] at k1
  obtain ⟨tau, a1, a2⟩ := finN_angle G Q w hQ k2 phi true
  have hQ1 := rotM_valid Q hQ (-phi) 0 0
  have hQ2 := rotM_valid _ hQ1 (-alpha) beta (-gamma)
  obtain ⟨tau', b1, b2⟩ := torque_lm_zero G _ _ hq (translate_Qlmb_valid _ hQ2 (mirrorY d))
  refine ⟨_, _, _, tau, k1, rotate_qlm_rotM Q (-phi) 0 0, rotate_qlm_rotM _ (-alpha) beta (-gamma), a1, ?_⟩
  simp only [if_true, neg_one_mul] at a2
  rw [k3 _ hQ1, cellSum_comm, ← cellSum_weight] at a2
  have : tau = tau' := by exact_mod_cast a2.trans b2.symm
  rw [this]
  exact b1

/-- C28: `torque` fails exactly for degree zero or an unknown translation type. -/
theorem C28_torque_fails_iff {L : ℕ} (q Q : Mom L) (hq : Valid q) (hQ : Valid Q) (alpha beta gamma : ℝ)
    (d : V3) (trans_type : String) (G : ℝ) :
    torque q Q alpha beta gamma d trans_type G = none ↔
      L = 0 ∨ (trans_type ≠ "inner-inner" ∧ trans_type ≠ "inner-outer" ∧ trans_type ≠ "outer-outer") := by
  by_cases hL : L = 0
  · subst hL
    have h1 := fun a b c => (C28_wigner_fails_iff 0 a b c).1.2 rfl
    rw [torque]
    simp only [h1, ite_self, Option.bind_eq_bind, Option.bind_none]
    simp
  have hL1 : 1 ≤ L := by omega
  by_cases h1 : trans_type = "inner-inner"
  · subst h1
    obtain ⟨t, _, _, _, h, _⟩ := C50_inner_inner hL1 q Q hq hQ alpha beta gamma d G 0
    simp [h, hL]
  by_cases h3 : trans_type = "outer-outer"
  · subst h3
    obtain ⟨t, _, _, _, h, _⟩ := C52_outer_outer hL1 q Q hq hQ alpha beta gamma d G 0
    simp [h, hL]
  by_cases h2 : trans_type = "inner-outer"
  · subst h2
    by_cases h0 : rPOf d = 0
    · obtain ⟨dR, hR, hR2⟩ := rotate_Ds_some (L := L) hL1 alpha beta gamma
      rw [torque]
      simp [hR, h0, hL]
    · by_cases ho : OnAxis d
      · obtain ⟨t, _, _, _, _, h, _⟩ := C51_inner_outer_axis hL1 q Q hq hQ alpha beta gamma d ho
          (fun e => h0 ((rPOf_eq_zero d).2 e)) G 0
        simp [h, hL]
      · obtain ⟨t, _, _, _, _, h, _⟩ := C50_inner_outer hL1 q Q hq hQ alpha beta gamma d ho G 0
        simp [h, hL]
  · obtain ⟨dR, hR, _⟩ := rotate_Ds_some (L := L) hL1 (-alpha) beta (-gamma)
    rw [torque]
    simp [h1, h2, h3, hR]

/-! ### Witnesses that C51 and C52 are real failures -/

/-- Inner moments of degree one only: `q(1,1) = a`. -/
noncomputable def dip (L : ℕ) (a : ℂ) : Mom L := Mom.ofFn L fun l m =>
  if l = 1 ∧ m = 1 then a else if l = 1 ∧ m = -1 then -(starRingEnd ℂ) a else 0

theorem dip_valid (L : ℕ) (a : ℂ) : Valid (dip L a) := by
  apply valid_ofFn
  · intro l m hl hm
    by_cases h1 : l = 1
    · subst h1
      by_cases h : m = 1
      · subst h; norm_num
      · by_cases h' : m = -1
        · subst h'; norm_num
        · have e1 : ¬ -m = 1 := by omega
          have e2 : ¬ -m = -1 := by omega
          simp [h, h', e1, e2]
    · simp [h1]
  · intro l m hl h
    by_cases h1 : l = 1
    · have e1 : ¬ m = 1 := by omega
      have e2 : ¬ m = -1 := by omega
      simp [e1, e2]
    · simp [h1]

theorem cellSum_dip {L : ℕ} (hL : 1 ≤ L) (a : ℂ) (W : Mom L) (hW : Valid W) :
    Complex.I * cellSum (dip L a) (weightLM W) = -((2 / 3 * (a * W.get 1 1).im : ℝ) : ℂ) := by
  have h1 : cellSum (dip L a) (weightLM W) = ∑ m ∈ Finset.Icc (-(L : ℤ)) L, (dip L a).get 1 m * (weightLM W).get 1 m := by
    rw [cellSum]
    apply Finset.sum_eq_single 1
    · intro l hl h1
      rw [Finset.mem_range] at hl
      apply Finset.sum_eq_zero
      intro m hm
      rw [Finset.mem_Icc] at hm
      rw [dip, Mom.get_ofFn _ (by omega) (by omega)]
      simp [h1]
    · intro h; exact absurd (Finset.mem_range.2 (by omega)) h
  have h2 : ∑ m ∈ Finset.Icc (-(L : ℤ)) L, (dip L a).get 1 m * (weightLM W).get 1 m =
      ∑ m ∈ ({1, -1} : Finset ℤ), (dip L a).get 1 m * (weightLM W).get 1 m := by
    symm
    apply Finset.sum_subset
    · intro m hm
      simp only [Finset.mem_insert, Finset.mem_singleton] at hm
      rw [Finset.mem_Icc]; omega
    · intro m hm hm'
      rw [Finset.mem_Icc] at hm
      simp only [Finset.mem_insert, Finset.mem_singleton, not_or] at hm'
      rw [dip, Mom.get_ofFn _ (by omega) (by omega)]
      simp [hm'.1, hm'.2]
  rw [h1, h2, Finset.sum_pair (by norm_num)]
  have hs := hW.1 1 1 hL (by omega)
  rw [dip, weightLM, Mom.get_ofFn _ hL (by omega), Mom.get_ofFn _ hL (by omega), Mom.get_ofFn _ hL (by omega),
    Mom.get_ofFn _ hL (by omega), hs]
  have h9 : Complex.normSq 3 = 9 := by
    rw [show (3 : ℂ) = ((3 : ℝ) : ℂ) by norm_num, Complex.normSq_ofReal]; norm_num
  apply Complex.ext
  · simp only [Nat.cast_one]; simp; ring_nf; rw [h9]; ring
  · simp

/-- C51: the on-axis `'inner-outer'` torque can have the wrong sign: for a dipole sensor and a dipole
source at height `r` the routine returns exactly minus the torque of the translated source. -/
theorem C51_wrong_sign (G r : ℝ) (hG : G ≠ 0) (hr : 0 < r) :
    ∃ (q Q Q3 : Mom 1) (t : TorqueOut 1) (tau : ℝ), Valid q ∧ Valid Q ∧
      torque q Q 0 0 0 ![0, 0, r] "inner-outer" G = some t ∧
      torques_at_angle t.nc t.ns 0 false = some tau ∧
      translate_q2Q Q ![0, 0, r] = some Q3 ∧
      torques_at_angle (torque_lm q Q3 G).nc (torque_lm q Q3 G).ns 0 false = some (-tau) ∧ tau ≠ 0 := by
  have hd0 : (![0, 0, r] : V3) ≠ 0 := fun h => hr.ne' (by simpa using congrFun h 2)
  have ho : OnAxis ![0, 0, r] := ⟨rfl, rfl, by simpa using hr.le⟩
  have hq := dip_valid 1 Complex.I
  have hQ := dip_valid 1 1
  obtain ⟨t, Q1, Q2, Q3, tau, a1, a2, a3, a4, a5, a6⟩ :=
    C51_inner_outer_axis le_rfl (dip 1 Complex.I) (dip 1 1) hq hQ 0 0 0 _ ho hd0 G 0
  rw [C27_zero, Option.some.injEq] at a2
  subst a2
  rw [C27_zero, Option.some.injEq] at a3
  subst a3
  have e3 : Q3 = Mom.ofFn 1 (trQ (dip 1 1) ![0, 0, r]) := by
    rw [translate_q2Q_closed _ _ hd0, Option.some.injEq] at a4
    exact a4.symm
  have hv : Valid Q3 := e3 ▸ trQ_valid _ hQ _
  have hvf := fliplr_valid _ hv
  obtain ⟨t1, b1, b2⟩ := torque_lm_zero G _ _ hq hvf
  obtain ⟨t2, c1, c2⟩ := torque_lm_zero G _ _ hq hv
  rw [a6, Option.some.injEq] at b1
  subst b1
  rw [mul_assoc, cellSum_dip le_rfl _ _ hvf] at b2
  rw [mul_assoc, cellSum_dip le_rfl _ _ hv] at c2
  have hg : Q3.get 1 1 = ((3 / (4 * Real.pi * Nlm 1 1 ^ 2) * (2 / r ^ 3) : ℝ) : ℂ) := by
    rw [e3, Mom.get_ofFn _ le_rfl (by simp), trQ, if_pos (by simp)]
    simp only [fO_ez _ _ _ hr]
    rw [Finset.sum_range_succ, Finset.sum_range_one]
    have hI : Finset.Icc (-((1 : ℕ) : ℤ)) ((1 : ℕ) : ℤ) = {-1, 0, 1} := by decide
    rw [hI]
    have g1 : (dip 1 1).get 1 (-1) = -1 := by
      rw [dip, Mom.get_ofFn _ le_rfl (by simp)]; norm_num
    simp only [Nat.cast_zero, neg_zero, Finset.Icc_self, Finset.sum_singleton]
    rw [Finset.sum_insert (by decide), Finset.sum_pair (by decide), g1]
    rw [Nlm_neg]
    norm_num
    have := Nlm_ne 1 1
    have hr' : (r : ℂ) ≠ 0 := by exact_mod_cast hr.ne'
    have hpi : (Real.pi : ℂ) ≠ 0 := by exact_mod_cast Real.pi_ne_zero
    field_simp
  have hf : (trr.fliplr Q3).get 1 1 = -((3 / (4 * Real.pi * Nlm 1 1 ^ 2) * (2 / r ^ 3) : ℝ) : ℂ) := by
    rw [trr.fliplr, Mom.get_ofFn _ le_rfl (by simp), hv.1 1 1 le_rfl (by simp), hg, Complex.conj_ofReal]
    simp
  set C : ℝ := 3 / (4 * Real.pi * Nlm 1 1 ^ 2) * (2 / r ^ 3) with hC
  have hC0 : 0 < C := by
    have := Nlm_pos 1 1
    have := Real.pi_pos
    positivity
  rw [hf] at b2
  rw [hg] at c2
  have b3 : tau = -4 * Real.pi * G * (2 / 3 * C) := by
    have : (tau : ℂ) = ((-4 * Real.pi * G * (2 / 3 * C) : ℝ) : ℂ) := by rw [b2]; push_cast; simp
    exact_mod_cast this
  have c3 : t2 = 4 * Real.pi * G * (2 / 3 * C) := by
    have : (t2 : ℂ) = ((4 * Real.pi * G * (2 / 3 * C) : ℝ) : ℂ) := by rw [c2]; push_cast; simp
    exact_mod_cast this
  refine ⟨_, _, Q3, t, tau, hq, hQ, a1, a5, a4, ?_, ?_⟩
  · rw [c1, c3, b3]; congr 1; ring
  · rw [b3]
    exact mul_ne_zero (mul_ne_zero (mul_ne_zero (by norm_num) Real.pi_ne_zero) hG)
      (mul_ne_zero (by norm_num) hC0.ne')

/-- Outer moments with only `Q(2,0) = 1`. -/
noncomputable def quadrupole : Mom 2 := Mom.ofFn 2 fun l m => if l = 2 ∧ m = 0 then 1 else 0

theorem quadrupole_valid : Valid quadrupole := by
  apply valid_ofFn
  · intro l m hl hm
    by_cases h : l = 2 ∧ m = 0
    · rw [h.1, h.2]; simp
    · have h' : ¬ (l = 2 ∧ -m = 0) := fun e => h ⟨e.1, by omega⟩
      simp [h, h']
  · intro l m hl h
    rw [if_neg (by omega)]

theorem trOuter_quad (y : ℝ) : (translate_Qlmb quadrupole ![0, y, 0]).get 1 1 =
    ((3 * Nlm 2 0 / (10 * Nlm 1 1) * -y : ℝ) : ℂ) * Complex.I := by
  rw [translate_Qlmb_closed _ quadrupole_valid, Mom.get_ofFn _ (by omega) (by simp), trOuter, if_pos (by simp)]
  have h2 : ∀ (k : ℕ) (n : ℤ), k ∈ Finset.Icc 1 2 → n ∈ Finset.Icc (-(k : ℤ)) k →
      quadrupole.get k n = if k = 2 ∧ n = 0 then 1 else 0 := by
    intro k n hk hn
    rw [Finset.mem_Icc] at hk hn
    rw [quadrupole, Mom.get_ofFn _ (by omega) (by omega)]
  rw [Finset.sum_eq_single 2, Finset.sum_eq_single 0, h2 2 0 (by decide) (by decide)]
  · have hR : Rsol (2 - 1) (0 - 1) (-![0, y, 0]) = -(y : ℂ) * Complex.I / 2 := by
      rw [Rsol, zc]
      simp [uPoly]
      ring
    rw [hR]
    push_cast
    have := Nlm_ne 1 1
    norm_num
    field_simp
    ring
  · intro n hn h0
    rw [h2 2 n (by decide) hn]
    simp [h0]
  · intro h; exact absurd (by decide) h
  · intro k hk hk2
    apply Finset.sum_eq_zero
    intro n hn
    rw [h2 k n hk hn]
    simp [hk2]
  · intro h; exact absurd (by decide) h

/-- C52: the `'outer-outer'` torque can have the wrong sign: for a dipole sensor and an axial quadrupole
source moved by `y` along the y axis the routine returns exactly minus the torque of the translated
source. -/
theorem C52_wrong_sign (G y : ℝ) (hG : G ≠ 0) (hy : y ≠ 0) :
    ∃ (q Q : Mom 2) (t : TorqueOut 2) (tau : ℝ), Valid q ∧ Valid Q ∧
      torque q Q 0 0 0 ![0, y, 0] "outer-outer" G = some t ∧
      torques_at_angle t.nc t.ns 0 true = some tau ∧
      torques_at_angle (torque_lm q (translate_Qlmb Q ![0, y, 0]) G).nc
        (torque_lm q (translate_Qlmb Q ![0, y, 0]) G).ns 0 false = some (-tau) ∧ tau ≠ 0 := by
  have hq := dip_valid 2 1
  have hQ := quadrupole_valid
  obtain ⟨t, Q1, Q2, tau, a1, a2, a3, a5, a6⟩ :=
    C52_outer_outer (by norm_num) (dip 2 1) quadrupole hq hQ 0 0 0 ![0, y, 0] G 0
  rw [neg_zero, C27_zero, Option.some.injEq] at a2
  subst a2
  rw [neg_zero, C27_zero, Option.some.injEq] at a3
  subst a3
  have hv := translate_Qlmb_valid _ hQ ![0, y, 0]
  have hv' := translate_Qlmb_valid _ hQ ![0, -y, 0]
  have a6' : torques_at_angle (torque_lm (dip 2 1) (translate_Qlmb quadrupole ![0, -y, 0]) G).nc
      (torque_lm (dip 2 1) (translate_Qlmb quadrupole ![0, -y, 0]) G).ns 0 false = some tau := by
    simpa using a6
  obtain ⟨t1, b1, b2⟩ := torque_lm_zero G _ _ hq hv'
  obtain ⟨t2, c1, c2⟩ := torque_lm_zero G _ _ hq hv
  rw [a6', Option.some.injEq] at b1
  subst b1
  rw [mul_assoc, cellSum_dip (by norm_num) _ _ hv', trOuter_quad] at b2
  rw [mul_assoc, cellSum_dip (by norm_num) _ _ hv, trOuter_quad] at c2
  set C : ℝ := 3 * Nlm 2 0 / (10 * Nlm 1 1) with hC
  have hC0 : 0 < C := by
    have := Nlm_pos 1 1
    have := Nlm_pos 2 0
    positivity
  have b3 : tau = -4 * Real.pi * G * (-(2 / 3) * (C * y)) := by
    have : (tau : ℂ) = ((-4 * Real.pi * G * (-(2 / 3) * (C * y)) : ℝ) : ℂ) := by
      rw [b2, one_mul, Complex.im_ofReal_mul, Complex.I_im]; push_cast; ring
    exact_mod_cast this
  have c3 : t2 = -4 * Real.pi * G * ((2 / 3) * (C * y)) := by
    have : (t2 : ℂ) = ((-4 * Real.pi * G * ((2 / 3) * (C * y)) : ℝ) : ℂ) := by
      rw [c2, one_mul, Complex.im_ofReal_mul, Complex.I_im]; push_cast; ring
    exact_mod_cast this
  refine ⟨_, _, t, tau, hq, hQ, a1, a5, ?_, ?_⟩
  · rw [c1, c3, b3]; congr 1; ring
  · rw [b3]
    exact mul_ne_zero (mul_ne_zero (mul_ne_zero (by norm_num) Real.pi_ne_zero) hG)
      (mul_ne_zero (by norm_num) (mul_ne_zero hC0.ne' hy))

/-- non-vacuity of C50-C52: valid degree-2 arrays, a displacement off the axis and one on it -/
example : Valid (dip 2 Complex.I) ∧ Valid quadrupole ∧ ¬ OnAxis ![1, 2, 3] ∧ OnAxis ![0, 0, 3] ∧
    (![0, 0, 3] : V3) ≠ 0 :=
  ⟨dip_valid 2 _, quadrupole_valid, fun h => by simpa using h.1, ⟨rfl, rfl, by simp⟩,
    fun h => by simpa using congrFun h 2⟩

end Newt
