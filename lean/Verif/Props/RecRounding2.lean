import Verif.Props.RecRounding

/-!
# C133: moments of rotated bodies and their torque by way of the recursive Wigner matrices
-/

namespace Newt

open Spec Flt

variable {a : Arith} {u : ℝ} {e : ℕ → ℝ}

theorem startErr_mono (h0 : 0 ≤ u) (h1 : u < 1) {eps d : ℝ} (he : 0 ≤ eps) (hd : 0 ≤ d) {n L : ℕ} (h : n ≤ L) : startErr u eps d n ≤ startErr u eps d L := by
  have a1 := relErr_nonneg h0 h1 2
  have a2 := relErr_nonneg h0 h1 3
  have a3 : Real.log (2 * (n + 1)).factorial ≤ Real.log (2 * (L + 1)).factorial :=
    Real.log_le_log (by exact_mod_cast Nat.factorial_pos _) (by exact_mod_cast Nat.factorial_le (by omega))
  have a4 : (n : ℝ) ≤ L := by exact_mod_cast h
  rw [startErr, startErr]
  gcongr

theorem recErr_mono (h0 : 0 ≤ u) (h1 : u < 1) {eps d : ℝ} (he : 0 ≤ eps) (hd : 0 ≤ d) {n L : ℕ} (h : n ≤ L) : recErr u eps d n ≤ recErr u eps d L := by
  have a1 := startErr_mono h0 h1 he hd h
  have a2 := startErr_nonneg h0 h1 he hd n
  have a3 : (3 : ℝ) ^ n ≤ 3 ^ L := pow_le_pow_right₀ (by norm_num) h
  rw [recErr, recErr]
  gcongr

theorem recGrow_mono (h0 : 0 ≤ u) (h1 : u < 1) {eps d : ℝ} (he : 0 ≤ eps) (hd : 0 ≤ d) (alpha gamma : ℝ) {n L : ℕ} (h : n ≤ L) :
    recGrow u eps d alpha gamma n ≤ recGrow u eps d alpha gamma L := by
  have a1 := recErr_mono h0 h1 he hd h
  have a2 := recErr_nonneg h0 h1 he hd n
  have a3 := relErr_nonneg h0 h1 10
  have a4 : (n : ℝ) ≤ L := by exact_mod_cast h
  rw [recGrow, recGrow]
  refine mul_le_mul (by linarith) ?_ (by positivity) (by linarith)
  gcongr

theorem wigGrow_mono (h0 : 0 ≤ u) (h1 : u < 1) {eps d : ℝ} (he : 0 ≤ eps) (hd : 0 ≤ d) (alpha beta gamma : ℝ) {n L : ℕ} (h : n ≤ L) :
    wigGrow u eps d alpha beta gamma n ≤ wigGrow u eps d alpha beta gamma L := by
  have a4 : (n : ℝ) ≤ L := by exact_mod_cast h
  rw [wigGrow, wigGrow]
  exact add_le_add (recGrow_mono h0 h1 he hd alpha gamma h) (mul_le_mul_of_nonneg_right (by linarith) (turnErr_nonneg h0 beta))

theorem rec_moments (h0 : 0 ≤ u) (hu : u ≤ 1 / 1000) (ha : Accurate a u e) (hU : UnitSafe a) {pi0 : ℝ} (hp : HalfTurn a u pi0) {leg : Leg} {el db : ℝ} {L : ℕ} (hL : LegAccurate leg (L + 2) el)
    {alpha beta gamma : ℝ} (hdb : TurnAccuracy u beta db) {A A' : PtArray} {r d eps : ℝ} (hr : 0 ≤ r) (hA : ∀ p ∈ A, originDist p ≤ r)
    (hdA : PolarAccuracy u d A) (heps : ∀ l, l ≤ L → e l ≤ eps * harmMax l) {q q' : Mom L} (hq : Flt.qmoments a L A q) (h : Flt.rotate_qlm a leg pi0 q alpha beta gamma q')
    (hA' : Rotated A alpha beta gamma A') :
    1 ≤ wigGrow u el db alpha beta gamma L * (1 + relErr u (8 * L + 6)) * ((1 + relErr u (3 * L + 3 + A.length)) * (1 + (eps + L * (Real.pi * (d + 8 * u))))) ∧
    ∀ (l : ℕ) (m : ℤ), l ≤ L → m.natAbs ≤ L → Within (wigGrow u el db alpha beta gamma L * (1 + relErr u (8 * L + 6)) * ((1 + relErr u (3 * L + 3 + A.length)) * (1 + (eps + L * (Real.pi * (d + 8 * u))))))
      (if m.natAbs ≤ l then (2 * l + 1) * (absMass A * r ^ l * harmMax l) else 0) (innerMoment A' l m) (q'.get l m) := by
  have h1' : u < 1 := by linarith
  have hpi := Real.pi_pos
  have hd0 := hdA.1
  have he := eps_nonneg ha heps
  have hc0 : 1 ≤ grow u (3 * L + 3 + A.length) * (1 + (eps + L * (Real.pi * (d + 8 * u)))) := by
    refine one_le_mul_of_one_le_of_one_le (grow_one_le h0 h1' _) ?_
    have : 0 ≤ (L : ℝ) * (Real.pi * (d + 8 * u)) := by positivity
    linarith
  have hcG : ∀ l : ℕ, 1 ≤ wigGrow u el db alpha beta gamma l * grow u (8 * l + 6) := fun l =>
    one_le_mul_of_one_le_of_one_le (wigGrow_one_le h0 h1' hL.1 hdb.1 _ _ _ _) (grow_one_le h0 h1' _)
  have hc : 1 ≤ wigGrow u el db alpha beta gamma L * (1 + relErr u (8 * L + 6)) * ((1 + relErr u (3 * L + 3 + A.length)) * (1 + (eps + L * (Real.pi * (d + 8 * u))))) :=
    one_le_mul_of_one_le_of_one_le (hcG L) hc0
  refine ⟨hc, fun l m hl hm => ?_⟩
  have hM := absMass_nonneg A
  have hH := harmMax_nonneg l
  have w : 0 ≤ absMass A * r ^ l * harmMax l := by positivity
  obtain ⟨D, f, hD, hf, rfl⟩ := h
  rw [Mom.get_ofFn _ hl hm]
  by_cases hlm : m.natAbs ≤ l
  · rw [if_pos hlm, rotated_moment hA' hlm]
    have wq : ∀ n : ℤ, n.natAbs ≤ l → Within (grow u (3 * L + 3 + A.length) * (1 + (eps + L * (Real.pi * (d + 8 * u))))) (absMass A * r ^ l * harmMax l) (innerMoment A l n) (q.get l n) :=
      fun n hn => by
        have := inner_within h0 (by linarith) ha hdA heps hA hq hl (m := n) (by omega)
        rwa [if_pos hn] at this
    by_cases hl1 : 1 ≤ l
    · rw [if_pos ⟨hl1, hlm⟩]
      have key := cdot_within h0 h1' ha (D0 := fun n => bigD l alpha beta gamma m n) (q0 := fun n => innerMoment A l n) (wD := fun _ => 1) (wq := fun _ => absMass A * r ^ l * harmMax l)
        (wigGrow_one_le h0 h1' hL.1 hdb.1 _ _ _ _)
        (fun n hn => wig_within h0 hu ha hU hp (legAccurate_mono (by omega) hL) (by omega) hdb hD hlm hn) wq (hf l m hl1 hl hlm)
      refine key.mono ?_ ?_ ?_
      · rw [mul_right_comm]
        exact one_le_mul_of_one_le_of_one_le (hcG l) hc0
      · rw [mul_right_comm]
        refine mul_le_mul_of_nonneg_right ?_ (by linarith)
        refine mul_le_mul (wigGrow_mono h0 h1' hL.1 hdb.1 _ _ _ hl) (grow_mono h0 h1' (by omega)) (by linarith [grow_one_le h0 h1' (8 * l + 6)])
          (by linarith [wigGrow_one_le h0 h1' hL.1 hdb.1 alpha beta gamma L])
      · rw [Finset.sum_const, nsmul_eq_mul, icc_card, one_mul]
    · obtain rfl : l = 0 := by omega
      obtain rfl : m = 0 := by omega
      rw [if_neg (by omega)]
      simp only [Nat.cast_zero, neg_zero, Finset.Icc_self, Finset.sum_singleton, bigD_zero, one_mul]
      refine (wq 0 (by simp)).mono hc0 ?_ (by norm_num)
      have := mul_le_mul_of_nonneg_right (hcG L) (by linarith : 0 ≤ grow u (3 * L + 3 + A.length) * (1 + (eps + L * (Real.pi * (d + 8 * u)))))
      rw [one_mul] at this
      exact this
  · rw [if_neg hlm, if_neg (by tauto)]
    have h2 := inner_within h0 (by linarith) ha hdA heps hA hq hl (m := m) hm
    rw [if_neg hlm] at h2
    have h3 : q.get l m = innerMoment A l m := by
      have := h2.2
      rw [mul_zero] at this
      exact sub_eq_zero.1 (norm_eq_zero.1 (le_antisymm this (norm_nonneg _)))
    have h4 := (innerMoment_valid L A).2 l m hl hm (by omega)
    have h5 := (innerMoment_valid L A').2 l m hl hm (by omega)
    rw [Mom.get_ofFn _ hl hm] at h4 h5
    rw [h3, h4, h5]
    exact Within.refl (by simp) hc

/-- **C133 (from an array to the moments of the rotated array).**  The moments of the rows, computed and then rotated by `rotate_qlm` in floating point arithmetic, are the moments of
the rotated rows up to the rounding errors. -/
theorem C133_points (h0 : 0 ≤ u) (hu : u ≤ 1 / 1000) (ha : Accurate a u e) (hU : UnitSafe a) {pi0 : ℝ} (hp : HalfTurn a u pi0) {leg : Leg} {el db : ℝ} {L : ℕ} (hL : LegAccurate leg (L + 2) el)
    {alpha beta gamma : ℝ} (hdb : TurnAccuracy u beta db) {A A' : PtArray} {r d eps : ℝ} (hr : 0 ≤ r) (hA : ∀ p ∈ A, originDist p ≤ r)
    (hdA : PolarAccuracy u d A) (heps : ∀ l, l ≤ L → e l ≤ eps * harmMax l) {q q' : Mom L} (hq : Flt.qmoments a L A q) (h : Flt.rotate_qlm a leg pi0 q alpha beta gamma q')
    (hA' : Rotated A alpha beta gamma A') {l : ℕ} {m : ℤ} (hl : l ≤ L) (hm : m.natAbs ≤ l) :
    ‖q'.get l m - innerMoment A' l m‖ ≤
      (wigGrow u el db alpha beta gamma L * (1 + relErr u (8 * L + 6)) * ((1 + relErr u (3 * L + 3 + A.length)) * (1 + (eps + L * (Real.pi * (d + 8 * u))))) - 1) *
        ((2 * l + 1) * (absMass A * r ^ l * harmMax l)) := by
  have := (rec_moments h0 hu ha hU hp hL hdb hr hA hdA heps hq h hA').2 l m hl (by omega)
  rw [if_pos hm] at this
  exact this.2

/-- **C133 (torque on a rotated body).**  Point masses `A` within radius `r` of the origin; their moments, rotated by `rotate_qlm`, and the outer moments of masses `B` beyond
`R > r`, put into `torque_lm` and `torques_at_angle`, all in floating point arithmetic, give the torque about `z` on the rotated masses turned by the angle, up to the truncation error
and the rounding error. -/
theorem C133_torque (h0 : 0 ≤ u) (hu : u ≤ 1 / 1000) (ha : Accurate a u e) (hU : UnitSafe a) {pi0 : ℝ} (hp : HalfTurn a u pi0) {leg : Leg} {el db : ℝ} {L : ℕ} (hL : LegAccurate leg (L + 2) el)
    {alpha beta gamma : ℝ} (hdb : TurnAccuracy u beta db) {A A1 : PtArray} (B : PtArray) (r R d eps : ℝ) (hr : 0 ≤ r) (hrR : r < R)
    (hA : ∀ p ∈ A, originDist p ≤ r) (hB : ∀ p ∈ B, R ≤ originDist p) (hdA : PolarAccuracy u d A) (hdB : PolarAccuracy u d B)
    (heps : ∀ l, l ≤ L → e l ≤ eps * harmMax l) {q q' Q : Mom L} (hq : Flt.qmoments a L A q) (hq' : Flt.rotate_qlm a leg pi0 q alpha beta gamma q') (hA1 : Rotated A alpha beta gamma A1)
    (hQ : Flt.Qmomentsb a L B Q)
    {g : ℝ} (hg : a.op BIG_G g) {t : TorqueOut L} (ht : Flt.torque_lm a q' Q g t) (angle : ℝ) {tau : ℝ} (htau : Flt.torques_at_angle a t.nc t.ns angle false tau) :
    ∃ A' f T, Newt.rotate_point_array A1 angle ![0, 0, 1] = some A' ∧ Newt.point_matrix_gravity A' B = some (f, T) ∧
      |tau - T 2| ≤ BIG_G * absMass A * absMass B * (r * missed r R L +
        (2 * L + 1) * (8 * r * R / (R - r) ^ 3) *
          ((1 + budget u d eps L (A.length + B.length) angle) * (wigGrow u el db alpha beta gamma L * (1 + relErr u (8 * L + 6))) - 1)) := by
  have h1' : u < 1 := by linarith
  have hR : 0 < R := by linarith
  have hpi := Real.pi_pos
  have hd0 := hdA.1
  have he := eps_nonneg ha heps
  have hM := absMass_nonneg A
  obtain ⟨hc, hw⟩ := rec_moments h0 hu ha hU hp hL hdb hr hA hdA heps hq hq' hA1
  have hcQ : 1 ≤ grow u (3 * L + 7 + B.length) * (1 + (eps + L * (Real.pi * (d + 8 * u)))) := by
    refine one_le_mul_of_one_le_of_one_le (grow_one_le h0 h1' _) ?_
    have : 0 ≤ (L : ℝ) * (Real.pi * (d + 8 * u)) := by positivity
    linarith
  have hw' : ∀ (l : ℕ) (m : ℤ), l ≤ L → m.natAbs ≤ L →
      Within (wigGrow u el db alpha beta gamma L * (1 + relErr u (8 * L + 6)) * ((1 + relErr u (3 * L + 3 + A.length)) * (1 + (eps + L * (Real.pi * (d + 8 * u))))))
      (if m.natAbs ≤ l then (2 * L + 1) * absMass A * r ^ l * harmMax l else 0) (innerMoment A1 l m) (q'.get l m) := by
    intro l m hl hm
    have hH := harmMax_nonneg l
    refine (hw l m hl hm).mono hc le_rfl ?_
    by_cases hlm : m.natAbs ≤ l
    · rw [if_pos hlm, if_pos hlm]
      have e1 : (l : ℝ) ≤ L := by exact_mod_cast hl
      calc (2 * (l : ℝ) + 1) * (absMass A * r ^ l * harmMax l) ≤ (2 * (L : ℝ) + 1) * (absMass A * r ^ l * harmMax l) := by gcongr
        _ = _ := by ring
    · rw [if_neg hlm, if_neg hlm]
  obtain ⟨A', f, T, k1, k2, k3⟩ := torque_of_within h0 h1' ha A1 B (K := (2 * L + 1) * absMass A) hr hrR
    (rotated_dist hA1 hA) hB (by positivity) hc hcQ hw' (fun l m hl hm => outer_within h0 (by linarith) ha hdB heps hR hB hQ hl hm) hg ht angle htau
  refine ⟨A', f, T, k1, k2, k3.trans_eq ?_⟩
  have e1 : grow u (3 * L + 16) * (wigGrow u el db alpha beta gamma L * (1 + relErr u (8 * L + 6)) * ((1 + relErr u (3 * L + 3 + A.length)) * (1 + (eps + L * (Real.pi * (d + 8 * u))))) *
      (grow u (3 * L + 7 + B.length) * (1 + (eps + L * (Real.pi * (d + 8 * u)))))) * (1 + u * (1 + L * |angle|)) - 1 =
      (1 + budget u d eps L (A.length + B.length) angle) * (wigGrow u el db alpha beta gamma L * (1 + relErr u (8 * L + 6))) - 1 := by
    rw [← budget_split h1']; ring
  rw [e1, rotated_absMass hA1]; ring

/-- A run in double precision that meets all hypotheses: two masses, turned by 4 about `y`, next to a third one. -/
example : ∃ (q q' Q : Mom 3) (t : TorqueOut 3) (tau : ℝ) (A1 A' : PtArray) (f T : V3), Flt.qmoments ieee53 3 [⟨2, ![1, 0, 1]⟩, ⟨5, ![0, 1, 0]⟩] q ∧
    Flt.rotate_qlm ieee53 exactLeg npPi q 1 4 3 q' ∧ Flt.Qmomentsb ieee53 3 [⟨2, ![3, 4, 1]⟩] Q ∧ Flt.torque_lm ieee53 q' Q (binRound 53 BIG_G) t ∧
    Flt.torques_at_angle ieee53 t.nc t.ns 1 false tau ∧ Rotated [⟨2, ![1, 0, 1]⟩, ⟨5, ![0, 1, 0]⟩] 1 4 3 A1 ∧ Newt.rotate_point_array A1 1 ![0, 0, 1] = some A' ∧
    Newt.point_matrix_gravity A' [⟨2, ![3, 4, 1]⟩] = some (f, T) ∧
    |tau - T 2| ≤ BIG_G * absMass [⟨2, ![1, 0, 1]⟩, ⟨5, ![0, 1, 0]⟩] * absMass [⟨2, ![3, 4, 1]⟩] * (2 * missed 2 5 3 +
      (2 * (3 : ℕ) + 1) * (8 * 2 * 5 / (5 - 2) ^ 3) * ((1 + budget ((2 : ℝ)⁻¹ ^ 53) (Real.sqrt (relErr ((2 : ℝ)⁻¹ ^ 53) 4 / 2)) 0 3 3 1) *
        (wigGrow ((2 : ℝ)⁻¹ ^ 53) 0 (Real.pi * Real.sqrt ((2 : ℝ)⁻¹ ^ 53 / 2)) 1 4 3 3 * (1 + relErr ((2 : ℝ)⁻¹ ^ 53) (8 * 3 + 6))) - 1)) := by
  have hu : (0 : ℝ) ≤ (2 : ℝ)⁻¹ ^ 53 := by positivity
  have hA : OffOrigin ([⟨2, ![1, 0, 1]⟩, ⟨5, ![0, 1, 0]⟩] : PtArray) := by
    intro p hp hc
    simp only [List.mem_cons, List.not_mem_nil, or_false] at hp
    rcases hp with rfl | rfl
    · have := congrFun hc 0; simp at this
    · have := congrFun hc 1; simp at this
  obtain ⟨q, hq⟩ := (C127_returns (u := (2 : ℝ)⁻¹ ^ 53) (by positivity) (by norm_num) ieee53_accurate ieee53_total (b := 53) (by norm_num) ieee53_nearest 3
    [⟨2, ![1, 0, 1]⟩, ⟨5, ![0, 1, 0]⟩] (by
      intro p hp
      simp only [List.mem_cons, List.not_mem_nil, or_false] at hp
      rcases hp with rfl | rfl
      · exact rep_one (by norm_num)
      · exact rep_zero _)).2 (by rw [qmoments_closed 3 _ (Or.inr hA.originLast)]; rfl)
  obtain ⟨Q, hQ⟩ := C127_outer_returns (u := (2 : ℝ)⁻¹ ^ 53) (by positivity) (by norm_num) ieee53_accurate ieee53_total (b := 53) (by norm_num) ieee53_nearest 3
    [⟨2, ![3, 4, 1]⟩] (by
      intro p hp
      rw [List.mem_singleton] at hp
      subst hp
      exact rep_one (by norm_num))
  obtain ⟨q', hq'⟩ := (C133_returns (L := 3) ieee53_total (leg := exactLeg) (fun m k x => ⟨_, rfl⟩) npPi 1 4 3).2 q
  obtain ⟨t, ht⟩ := C128_torque_lm_returns ieee53_total q' Q (binRound 53 BIG_G)
  have hlen : t.nc ≠ [] ∧ t.nc.length ≤ t.ns.length := by
    obtain ⟨c, -, -, nm, -, h1, h2, -⟩ := ht
    exact ⟨fun h => by rw [h] at h1; simp at h1, by omega⟩
  obtain ⟨tau, htau⟩ := (C128_returns ieee53_total t.nc t.ns 1 false).2 (by
    rw [Newt.torques_at_angle, if_neg (by rintro (h | h); exacts [hlen.1 h, absurd hlen.2 (by omega)])]; rfl)
  obtain ⟨A1, hA1⟩ := rotated_exists [⟨2, ![1, 0, 1]⟩, ⟨5, ![0, 1, 0]⟩] 1 4 3
  obtain ⟨A', f, T, k1, k2, k3⟩ := C133_torque hu (by norm_num) ieee53_accurate ieee53_unit (C133_npPi ieee53_nearest) (exactLeg_accurate (3 + 2)) (C133_turn hu 4).1
    [⟨2, ![3, 4, 1]⟩] 2 5 (Real.sqrt (relErr ((2 : ℝ)⁻¹ ^ 53) 4 / 2)) 0 (by norm_num) (by norm_num) (by
      intro p hp
      simp only [List.mem_cons, List.not_mem_nil, or_false] at hp
      rcases hp with rfl | rfl
      · rw [originDist, Real.sqrt_le_left (by norm_num)]; simp only [Matrix.cons_val]; norm_num
      · rw [originDist, Real.sqrt_le_left (by norm_num)]; simp only [Matrix.cons_val]; norm_num) (by
      intro p hp
      rw [List.mem_singleton] at hp
      subst hp
      rw [originDist]
      refine Real.le_sqrt_of_sq_le ?_
      simp only [Matrix.cons_val]
      norm_num) (polar_any _ _) (polar_any _ _) (fun l _ => by simp) hq hq' hA1 hQ (show ieee53.op BIG_G (binRound 53 BIG_G) from rfl) ht 1 htau
  exact ⟨q, q', Q, t, tau, A1, A', f, T, hq, hq', hQ, ht, htau, hA1, k1, k2, k3⟩

end Newt
