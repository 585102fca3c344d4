import Verif.Proofs.WigRounding
import Verif.Props.ChainRounding
import Verif.Props.Rotations

/-!
# C132: rounding of the explicit Wigner matrices and of rotated moments
-/

namespace Newt

open Spec Flt

variable {a : Arith} {u : ℝ} {e : ℕ → ℝ}

/-- **C132 (entries).**  Every entry of the matrix that `Dl` returns in floating point arithmetic differs from the exact one by at most the growth factor less one times Wigner's
sum without signs, and that sum is at most `2^l`. -/
theorem C132_entry (h0 : 0 ≤ u) (h1 : u < 1) (ha : Accurate a u e) {l : ℕ} {alpha beta gamma : ℝ} {D : ℤ → ℤ → ℂ} (h : Flt.Dl a l alpha beta gamma D) {n m : ℤ}
    (hn : n.natAbs ≤ l) (hm : m.natAbs ≤ l) :
    ‖D n m - Newt.Dl l alpha beta gamma n m‖ ≤ (wignerGrow u alpha gamma l - 1) * wignerAbs l n m beta ∧ wignerAbs l n m beta ≤ 2 ^ l :=
  ⟨(Dlmn_within h0 h1 ha hm hn (h n m hn hm)).2, wignerAbs_le hn hm beta⟩

/-- The exact rotations. -/
theorem rotate_entry {L : ℕ} (q : Mom L) (alpha beta gamma : ℝ) (cj : Bool) : ∃ q0 : Mom L,
    (if cj then Newt.rotate_qlm q (-gamma) (-beta) (-alpha) else Newt.rotate_qlm q alpha beta gamma) = some q0 ∧
    ∀ (l : ℕ) (m : ℤ), l ≤ L → m.natAbs ≤ L → q0.get l m = if m.natAbs ≤ l then
      ∑ n ∈ Finset.Icc (-(l : ℤ)) l, (if cj then (starRingEnd ℂ) (bigD l alpha beta gamma n m) else bigD l alpha beta gamma m n) * q.get l n else q.get l m := by
  obtain ⟨ds, h1, h2, h3⟩ := wignerDl_some (L + 1) (by omega) alpha beta gamma
  cases cj
  · simp only [Bool.false_eq_true, if_false]
    refine ⟨_, rotate_qlm_closed q alpha beta gamma, fun l m hl hm => ?_⟩
    rw [Mom.get_ofFn _ hl hm]
  · simp only [if_true]
    refine ⟨_, rotate_qlm_closed q _ _ _, fun l m hl hm => ?_⟩
    rw [Mom.get_ofFn _ hl hm]
    by_cases hml : m.natAbs ≤ l
    · rw [if_pos hml, if_pos hml]
      refine Finset.sum_congr rfl fun n hn => ?_
      rw [Finset.mem_Icc] at hn
      rw [bigD_inv l alpha beta gamma m n hml (by omega)]
    · rw [if_neg hml, if_neg hml]

/-- **C132 (rotated moments).**  The moments that `rotate_qlm_Ds` returns in floating point arithmetic, with matrices computed by `Dl` in floating point arithmetic, differ from
those of `rotate_qlm` (which uses another algorithm) in exact arithmetic by at most the growth factor less one times the rotation without regard to sign, which is at most `2^l` times
the sum of the moduli of the moments of the same degree. -/
theorem C132_rotate (h0 : 0 ≤ u) (h1 : u < 1) (ha : Accurate a u e) {L : ℕ} {q q' : Mom L} {ds : List (ℤ → ℤ → ℂ)} (hlen : ds.length = L + 1) {alpha beta gamma : ℝ}
    (hds : ∀ l, l ≤ L → Flt.Dl a l alpha beta gamma (ds.getD l 0)) (h : Flt.rotate_qlm_Ds a q ds false q') :
    ∃ q0, Newt.rotate_qlm q alpha beta gamma = some q0 ∧ ∀ (l : ℕ) (m : ℤ), l ≤ L → m.natAbs ≤ l →
      ‖q'.get l m - q0.get l m‖ ≤ (rotGrow u alpha gamma l - 1) * ∑ n ∈ Finset.Icc (-(l : ℤ)) l, wignerAbs l m n beta * ‖q.get l n‖ ∧
      ∑ n ∈ Finset.Icc (-(l : ℤ)) l, wignerAbs l m n beta * ‖q.get l n‖ ≤ 2 ^ l * ∑ n ∈ Finset.Icc (-(l : ℤ)) l, ‖q.get l n‖ := by
  obtain ⟨q0, k1, k2⟩ := rotate_entry q alpha beta gamma false
  refine ⟨q0, k1, fun l m hl hm => ⟨?_, ?_⟩⟩
  · have := rotDs_within h0 h1 ha hlen hds (c := 1) le_rfl (q0 := fun l m => q.get l m) (w := fun l m => ‖q.get l m‖) h hl hm fun n _ => Within.refl le_rfl le_rfl
    rw [k2 l m hl (by omega), if_pos hm]
    simpa using this.2
  · rw [Finset.mul_sum]
    refine Finset.sum_le_sum fun n hn => mul_le_mul_of_nonneg_right (wignerAbs_le hm ?_ beta) (norm_nonneg _)
    rw [Finset.mem_Icc] at hn
    omega

/-- **C132 (inverse rotation).**  With `conj_trans` the same matrices give the inverse rotation. -/
theorem C132_inverse (h0 : 0 ≤ u) (h1 : u < 1) (ha : Accurate a u e) {L : ℕ} {q q' : Mom L} {ds : List (ℤ → ℤ → ℂ)} (hlen : ds.length = L + 1) {alpha beta gamma : ℝ}
    (hds : ∀ l, l ≤ L → Flt.Dl a l alpha beta gamma (ds.getD l 0)) (h : Flt.rotate_qlm_Ds a q ds true q') :
    ∃ q0, Newt.rotate_qlm q (-gamma) (-beta) (-alpha) = some q0 ∧ ∀ (l : ℕ) (m : ℤ), l ≤ L → m.natAbs ≤ l →
      ‖q'.get l m - q0.get l m‖ ≤ (rotGrow u alpha gamma l - 1) * ∑ n ∈ Finset.Icc (-(l : ℤ)) l, wignerAbs l n m beta * ‖q.get l n‖ ∧
      ∑ n ∈ Finset.Icc (-(l : ℤ)) l, wignerAbs l n m beta * ‖q.get l n‖ ≤ 2 ^ l * ∑ n ∈ Finset.Icc (-(l : ℤ)) l, ‖q.get l n‖ := by
  obtain ⟨q0, k1, k2⟩ := rotate_entry q alpha beta gamma true
  refine ⟨q0, k1, fun l m hl hm => ⟨?_, ?_⟩⟩
  · have := rotDs_within h0 h1 ha hlen hds (c := 1) le_rfl (q0 := fun l m => q.get l m) (w := fun l m => ‖q.get l m‖) h hl hm fun n _ => Within.refl le_rfl le_rfl
    rw [k2 l m hl (by omega), if_pos hm]
    simpa using this.2
  · rw [Finset.mul_sum]
    refine Finset.sum_le_sum fun n hn => mul_le_mul_of_nonneg_right (wignerAbs_le ?_ hm beta) (norm_nonneg _)
    rw [Finset.mem_Icc] at hn
    omega

/-- **C132 (what is copied).**  Nothing is changed if the number of matrices does not match; the monopole and whatever is stored outside of the triangle are never changed. -/
theorem C132_copied {L : ℕ} {q q' : Mom L} {ds : List (ℤ → ℤ → ℂ)} {cj : Bool} (h : Flt.rotate_qlm_Ds a q ds cj q') :
    (ds.length ≠ L + 1 → q' = q) ∧ q'.get 0 0 = q.get 0 0 ∧ ∀ (l : ℕ) (m : ℤ), l ≤ L → m.natAbs ≤ L → l < m.natAbs → q'.get l m = q.get l m := by
  rcases h with ⟨h, rfl⟩ | ⟨h, f, -, rfl⟩
  · exact ⟨fun _ => rfl, rfl, fun _ _ _ _ _ => rfl⟩
  · refine ⟨fun h' => absurd h h', ?_, fun l m hl hm hlm => ?_⟩
    · rw [Mom.get_ofFn _ (by omega) (by simp), if_neg (by simp)]
    · rw [Mom.get_ofFn _ hl hm, if_neg (by omega)]

theorem icc_card (l : ℕ) : ((Finset.Icc (-(l : ℤ)) l).card : ℝ) = 2 * l + 1 := by
  rw [Int.card_Icc, show ((l : ℤ) + 1 - -(l : ℤ)).toNat = 2 * l + 1 by omega]
  push_cast; ring

/-- **C132 (there and back).**  Rotating moments and rotating them back with `conj_trans` in floating point arithmetic returns the moments up to a rounding error. -/
theorem C132_there_and_back (h0 : 0 ≤ u) (h1 : u < 1) (ha : Accurate a u e) {L : ℕ} {q q' q'' : Mom L} {ds : List (ℤ → ℤ → ℂ)} (hlen : ds.length = L + 1) {alpha beta gamma : ℝ}
    (hds : ∀ l, l ≤ L → Flt.Dl a l alpha beta gamma (ds.getD l 0)) (h : Flt.rotate_qlm_Ds a q ds false q') (h' : Flt.rotate_qlm_Ds a q' ds true q'') {l : ℕ} {m : ℤ} (hl : l ≤ L)
    (hm : m.natAbs ≤ l) :
    ‖q''.get l m - q.get l m‖ ≤ (rotGrow u alpha gamma l ^ 2 - 1) * ((2 * l + 1) * 4 ^ l * ∑ n ∈ Finset.Icc (-(l : ℤ)) l, ‖q.get l n‖) := by
  have G := rotGrow_one_le h0 h1 alpha gamma l
  have w1 : ∀ n : ℤ, n.natAbs ≤ l → Within (rotGrow u alpha gamma l) (2 ^ l * ∑ k ∈ Finset.Icc (-(l : ℤ)) l, ‖q.get l k‖)
      (∑ k ∈ Finset.Icc (-(l : ℤ)) l, bigD l alpha beta gamma n k * q.get l k) (q'.get l n) := by
    intro n hn
    have := rotDs_within h0 h1 ha hlen hds (c := 1) le_rfl (q0 := fun l m => q.get l m) (w := fun l m => ‖q.get l m‖) h hl hn fun n _ => Within.refl le_rfl le_rfl
    simp only [Bool.false_eq_true, if_false, mul_one] at this
    refine this.mono G le_rfl ?_
    rw [Finset.mul_sum]
    refine Finset.sum_le_sum fun k hk => mul_le_mul_of_nonneg_right (wignerAbs_le hn ?_ beta) (norm_nonneg _)
    rw [Finset.mem_Icc] at hk
    omega
  have w2 := rotDs_within h0 h1 ha hlen hds G (q0 := fun l n => ∑ k ∈ Finset.Icc (-(l : ℤ)) l, bigD l alpha beta gamma n k * q.get l k)
    (w := fun l _ => 2 ^ l * ∑ k ∈ Finset.Icc (-(l : ℤ)) l, ‖q.get l k‖) h' hl hm w1
  simp only [if_true] at w2
  have e1 : ∑ n ∈ Finset.Icc (-(l : ℤ)) l, (starRingEnd ℂ) (bigD l alpha beta gamma n m) * ∑ k ∈ Finset.Icc (-(l : ℤ)) l, bigD l alpha beta gamma n k * q.get l k = q.get l m := by
    simp only [Finset.mul_sum]
    rw [Finset.sum_comm]
    have e2 : ∀ k ∈ Finset.Icc (-(l : ℤ)) l, ∑ n ∈ Finset.Icc (-(l : ℤ)) l, (starRingEnd ℂ) (bigD l alpha beta gamma n m) * (bigD l alpha beta gamma n k * q.get l k) =
        if m = k then q.get l k else 0 := by
      intro k hk
      rw [Finset.mem_Icc] at hk
      have := bigD_unitary_cols l alpha beta gamma k m (by omega) hm
      rw [show (if m = k then q.get l k else 0) = (if k = m then 1 else 0) * q.get l k by simp only [eq_comm (a := m)]; split_ifs <;> simp, ← this, Finset.sum_mul]
      exact Finset.sum_congr rfl fun n _ => by ring
    rw [Finset.sum_congr rfl e2, Finset.sum_ite_eq, if_pos (by rw [Finset.mem_Icc]; omega)]
  rw [e1] at w2
  have hS : 0 ≤ ∑ k ∈ Finset.Icc (-(l : ℤ)) l, ‖q.get l k‖ := Finset.sum_nonneg fun _ _ => norm_nonneg _
  have w3 := w2.2
  rw [← sq] at w3
  refine w3.trans (mul_le_mul_of_nonneg_left ?_ (by nlinarith))
  calc ∑ n ∈ Finset.Icc (-(l : ℤ)) l, wignerAbs l n m beta * (2 ^ l * ∑ k ∈ Finset.Icc (-(l : ℤ)) l, ‖q.get l k‖)
      ≤ ∑ n ∈ Finset.Icc (-(l : ℤ)) l, 2 ^ l * (2 ^ l * ∑ k ∈ Finset.Icc (-(l : ℤ)) l, ‖q.get l k‖) := by
        refine Finset.sum_le_sum fun n hn => mul_le_mul_of_nonneg_right (wignerAbs_le ?_ hm beta) (by positivity)
        rw [Finset.mem_Icc] at hn
        omega
    _ = (2 * l + 1) * (2 ^ l * 2 ^ l) * ∑ k ∈ Finset.Icc (-(l : ℤ)) l, ‖q.get l k‖ := by rw [Finset.sum_const, nsmul_eq_mul, icc_card]; ring
    _ = _ := by rw [← mul_pow]; norm_num

/-- **C132 (no rounding, no error).**  In exact arithmetic the matrices and the rotated moments are exact. -/
theorem C132_exact (ha : Accurate a 0 e) {L : ℕ} {q q' : Mom L} {ds : List (ℤ → ℤ → ℂ)} (hlen : ds.length = L + 1) {alpha beta gamma : ℝ}
    (hds : ∀ l, l ≤ L → Flt.Dl a l alpha beta gamma (ds.getD l 0)) (h : Flt.rotate_qlm_Ds a q ds false q') :
    (∀ (l : ℕ) (n m : ℤ), l ≤ L → n.natAbs ≤ l → m.natAbs ≤ l → ds.getD l 0 n m = Newt.Dl l alpha beta gamma n m) ∧ Newt.rotate_qlm q alpha beta gamma = some q' := by
  have hr : ∀ k, relErr 0 k = 0 := fun k => by simp [relErr]
  constructor
  · intro l n m hl hn hm
    have := (C132_entry le_rfl one_pos ha (hds l hl) hn hm).1
    rw [wignerGrow, hr, hr] at this
    simp only [add_zero, zero_mul, mul_one, sub_self] at this
    exact sub_eq_zero.1 (norm_eq_zero.1 (le_antisymm this (norm_nonneg _)))
  · obtain ⟨q0, k1, k2⟩ := C132_rotate le_rfl one_pos ha hlen hds h
    rw [k1]
    congr 1
    apply Mom.ext_get
    intro l m hl hm
    by_cases hml : m.natAbs ≤ l
    · have := (k2 l m hl hml).1
      rw [rotGrow, wignerGrow, hr, hr, hr] at this
      simp only [add_zero, zero_mul, mul_one, sub_self] at this
      exact (sub_eq_zero.1 (norm_eq_zero.1 (le_antisymm this (norm_nonneg _)))).symm
    · obtain ⟨q1, j1, j2⟩ := rotate_entry q alpha beta gamma false
      simp only [Bool.false_eq_true, if_false] at j1
      rw [k1] at j1
      obtain rfl := Option.some.inj j1
      rw [j2 l m hl hm, if_neg hml, (C132_copied h).2.2 l m hl hm (by omega)]

/-! ## From the rows to the rotated moments and to the torque -/

theorem rotGrow_mono (h0 : 0 ≤ u) (h1 : u < 1) (alpha gamma : ℝ) {l L : ℕ} (h : l ≤ L) : rotGrow u alpha gamma l ≤ rotGrow u alpha gamma L := by
  have a1 := relErr_mono h0 h1 (show 3 * l + 24 ≤ 3 * L + 24 by omega)
  have a2 := relErr_mono h0 h1 (show 8 * l + 6 ≤ 8 * L + 6 by omega)
  have a3 := relErr_nonneg h0 h1 2
  have a4 := relErr_nonneg h0 h1 (3 * l + 24)
  have a5 := relErr_nonneg h0 h1 (8 * l + 6)
  have a6 : (l : ℝ) ≤ L := by exact_mod_cast h
  have p0 : 0 ≤ |alpha| + |gamma| := by positivity
  have w : wignerGrow u alpha gamma l ≤ wignerGrow u alpha gamma L := by
    rw [wignerGrow, wignerGrow]
    refine mul_le_mul (by linarith) ?_ (by positivity) (by linarith)
    have := mul_le_mul_of_nonneg_left (mul_le_mul_of_nonneg_right a6 p0) a3
    linarith
  rw [rotGrow, rotGrow]
  exact mul_le_mul w (by linarith) (by linarith) (zero_le_one.trans (wignerGrow_one_le h0 h1 _ _ _))

theorem rotated_rows {A A' : PtArray} {alpha beta gamma : ℝ} (h : Rotated A alpha beta gamma A') : A' = A.map fun p => ⟨p.mass, rz alpha (ry beta (rz gamma p.pos))⟩ := by
  obtain ⟨A1, A2, e1, e2, e3⟩ := h
  rw [rotate_some ez_ne] at e1
  obtain rfl := Option.some.inj e1
  rw [rotate_some ey_ne] at e2
  obtain rfl := Option.some.inj e2
  rw [rotate_some ez_ne] at e3
  obtain rfl := Option.some.inj e3
  rw [List.map_map, List.map_map]
  apply List.map_congr_left
  intro p _
  simp [rotF_z, rotF_y]

theorem rotated_exists (A : PtArray) (alpha beta gamma : ℝ) : ∃ A', Rotated A alpha beta gamma A' :=
  ⟨_, _, _, rotate_some ez_ne _ _, rotate_some ey_ne _ _, rotate_some ez_ne _ _⟩

theorem rotated_moment {A A' : PtArray} {alpha beta gamma : ℝ} (h : Rotated A alpha beta gamma A') {l : ℕ} {m : ℤ} (hm : m.natAbs ≤ l) :
    innerMoment A' l m = ∑ n ∈ Finset.Icc (-(l : ℤ)) l, bigD l alpha beta gamma m n * innerMoment A l n := by
  rw [rotated_rows h, innerMoment_map (fun v => rz alpha (ry beta (rz gamma v))) l m (bigD l alpha beta gamma m) (solidS_rot l m hm alpha beta gamma)]

theorem rotated_absMass {A A' : PtArray} {alpha beta gamma : ℝ} (h : Rotated A alpha beta gamma A') : absMass A' = absMass A := by
  rw [rotated_rows h, absMass, absMass, List.map_map]; rfl

theorem rotated_dist {A A' : PtArray} {alpha beta gamma r : ℝ} (h : Rotated A alpha beta gamma A') (hA : ∀ p ∈ A, originDist p ≤ r) : ∀ p ∈ A', originDist p ≤ r := by
  rw [rotated_rows h]
  intro p hp
  obtain ⟨s, hs, rfl⟩ := List.mem_map.1 hp
  refine le_of_eq_of_le ?_ (hA s hs)
  have : modulus (rz alpha (ry beta (rz gamma s.pos))) = modulus s.pos := by
    rw [← rotF_z, rotF_modulus ez_ne, ← rotF_y, rotF_modulus ey_ne, ← rotF_z, rotF_modulus ez_ne]
  exact this

theorem rotated_within (h0 : 0 ≤ u) (h1 : u ≤ 1 / 4) (ha : Accurate a u e) {A A' : PtArray} {alpha beta gamma r d eps : ℝ} (hr : 0 ≤ r) (hA : ∀ p ∈ A, originDist p ≤ r)
    (hdA : PolarAccuracy u d A) {L : ℕ} (heps : ∀ l, l ≤ L → e l ≤ eps * harmMax l) {q q' : Mom L} (hq : Flt.qmoments a L A q) {ds : List (ℤ → ℤ → ℂ)} (hlen : ds.length = L + 1)
    (hds : ∀ l, l ≤ L → Flt.Dl a l alpha beta gamma (ds.getD l 0)) (h : Flt.rotate_qlm_Ds a q ds false q') (hA' : Rotated A alpha beta gamma A') :
    1 ≤ rotGrow u alpha gamma L * ((1 + relErr u (3 * L + 3 + A.length)) * (1 + (eps + L * (Real.pi * (d + 8 * u))))) ∧
    ∀ (l : ℕ) (m : ℤ), l ≤ L → m.natAbs ≤ L → Within (rotGrow u alpha gamma L * ((1 + relErr u (3 * L + 3 + A.length)) * (1 + (eps + L * (Real.pi * (d + 8 * u))))))
      (if m.natAbs ≤ l then (2 * l + 1) * 2 ^ l * (absMass A * r ^ l * harmMax l) else 0) (innerMoment A' l m) (q'.get l m) := by
  have h1' : u < 1 := by linarith
  have hpi := Real.pi_pos
  have hd0 := hdA.1
  have he := eps_nonneg ha heps
  have hc0 : 1 ≤ grow u (3 * L + 3 + A.length) * (1 + (eps + L * (Real.pi * (d + 8 * u)))) := by
    refine one_le_mul_of_one_le_of_one_le (grow_one_le h0 h1' _) ?_
    have : 0 ≤ (L : ℝ) * (Real.pi * (d + 8 * u)) := by positivity
    linarith
  have hc : 1 ≤ rotGrow u alpha gamma L * ((1 + relErr u (3 * L + 3 + A.length)) * (1 + (eps + L * (Real.pi * (d + 8 * u))))) :=
    one_le_mul_of_one_le_of_one_le (rotGrow_one_le h0 h1' _ _ _) hc0
  refine ⟨hc, fun l m hl hm => ?_⟩
  have hM := absMass_nonneg A
  have hH := harmMax_nonneg l
  by_cases hlm : m.natAbs ≤ l
  · rw [if_pos hlm, rotated_moment hA' hlm]
    have key := rotDs_within h0 h1' ha hlen hds hc0 (q0 := innerMoment A) (w := fun l _ => absMass A * r ^ l * harmMax l) h hl hlm fun n hn => by
      have := inner_within h0 h1 ha hdA heps hA hq hl (m := n) (by omega)
      rwa [if_pos hn] at this
    simp only [Bool.false_eq_true, if_false] at key
    refine key.mono (one_le_mul_of_one_le_of_one_le (rotGrow_one_le h0 h1' _ _ _) hc0) (mul_le_mul_of_nonneg_right (rotGrow_mono h0 h1' _ _ hl) (by linarith)) ?_
    calc ∑ n ∈ Finset.Icc (-(l : ℤ)) l, wignerAbs l m n beta * (absMass A * r ^ l * harmMax l)
        ≤ ∑ n ∈ Finset.Icc (-(l : ℤ)) l, 2 ^ l * (absMass A * r ^ l * harmMax l) := by
          refine Finset.sum_le_sum fun n hn => mul_le_mul_of_nonneg_right (wignerAbs_le hlm ?_ beta) (by positivity)
          rw [Finset.mem_Icc] at hn
          omega
      _ = _ := by rw [Finset.sum_const, nsmul_eq_mul, icc_card]; ring
  · rw [if_neg hlm, (C132_copied h).2.2 l m hl hm (by omega)]
    have h2 := inner_within h0 h1 ha hdA heps hA hq hl (m := m) hm
    rw [if_neg hlm] at h2
    have h3 : q.get l m = innerMoment A l m := by
      have := h2.2
      rw [mul_zero] at this
      exact sub_eq_zero.1 (norm_eq_zero.1 (le_antisymm this (norm_nonneg _)))
    have h4 := (innerMoment_valid L A).2 l m hl hm (by omega)
    have h5 := (innerMoment_valid L A').2 l m hl hm (by omega)
    rw [Mom.get_ofFn _ hl hm] at h4 h5
    rw [h3, h4, h5]
    exact Within.refl (by simp) hc

/-- **C132 (from an array to the moments of the rotated array).**  The moments of the rows, computed and then rotated in floating point arithmetic, are the moments of the rotated rows
up to the rounding errors. -/
theorem C132_points (h0 : 0 ≤ u) (h1 : u ≤ 1 / 4) (ha : Accurate a u e) {A A' : PtArray} {alpha beta gamma r d eps : ℝ} (hr : 0 ≤ r) (hA : ∀ p ∈ A, originDist p ≤ r)
    (hdA : PolarAccuracy u d A) {L : ℕ} (heps : ∀ l, l ≤ L → e l ≤ eps * harmMax l) {q q' : Mom L} (hq : Flt.qmoments a L A q) {ds : List (ℤ → ℤ → ℂ)} (hlen : ds.length = L + 1)
    (hds : ∀ l, l ≤ L → Flt.Dl a l alpha beta gamma (ds.getD l 0)) (h : Flt.rotate_qlm_Ds a q ds false q') (hA' : Rotated A alpha beta gamma A') {l : ℕ} {m : ℤ} (hl : l ≤ L)
    (hm : m.natAbs ≤ l) :
    ‖q'.get l m - innerMoment A' l m‖ ≤ (rotGrow u alpha gamma L * ((1 + relErr u (3 * L + 3 + A.length)) * (1 + (eps + L * (Real.pi * (d + 8 * u))))) - 1) *
      ((2 * l + 1) * 2 ^ l * (absMass A * r ^ l * harmMax l)) := by
  have := (rotated_within h0 h1 ha hr hA hdA heps hq hlen hds h hA').2 l m hl (by omega)
  rw [if_pos hm] at this
  exact this.2

/-- **C132 (torque on a rotated body).**  Point masses `A` within radius `r` of the origin; their moments, rotated by Wigner matrices, and the outer moments of masses `B` beyond
`R > r`, put into `torque_lm` and `torques_at_angle`, all in floating point arithmetic, give the torque about `z` on the rotated masses turned by the angle, up to the truncation error
and the rounding error. -/
theorem C132_torque (h0 : 0 ≤ u) (h1 : u ≤ 1 / 4) (ha : Accurate a u e) {A A1 : PtArray} (B : PtArray) {alpha beta gamma : ℝ} (r R d eps : ℝ) (hr : 0 ≤ r) (hrR : r < R)
    (hA : ∀ p ∈ A, originDist p ≤ r) (hB : ∀ p ∈ B, R ≤ originDist p) (hdA : PolarAccuracy u d A) (hdB : PolarAccuracy u d B) {L : ℕ}
    (heps : ∀ l, l ≤ L → e l ≤ eps * harmMax l) {q q' Q : Mom L} (hq : Flt.qmoments a L A q) {ds : List (ℤ → ℤ → ℂ)} (hlen : ds.length = L + 1)
    (hds : ∀ l, l ≤ L → Flt.Dl a l alpha beta gamma (ds.getD l 0)) (hq' : Flt.rotate_qlm_Ds a q ds false q') (hA1 : Rotated A alpha beta gamma A1) (hQ : Flt.Qmomentsb a L B Q)
    {g : ℝ} (hg : a.op BIG_G g) {t : TorqueOut L} (ht : Flt.torque_lm a q' Q g t) (angle : ℝ) {tau : ℝ} (htau : Flt.torques_at_angle a t.nc t.ns angle false tau) :
    ∃ A' f T, Newt.rotate_point_array A1 angle ![0, 0, 1] = some A' ∧ Newt.point_matrix_gravity A' B = some (f, T) ∧
      |tau - T 2| ≤ BIG_G * absMass A * absMass B * (r * missed r R L +
        (2 * L + 1) * 2 ^ L * (8 * r * R / (R - r) ^ 3) * rotatedBudget u d eps alpha gamma L (A.length + B.length) angle) := by
  have h1' : u < 1 := by linarith
  have hR : 0 < R := by linarith
  have hpi := Real.pi_pos
  have hd0 := hdA.1
  have he := eps_nonneg ha heps
  have hM := absMass_nonneg A
  obtain ⟨hc, hw⟩ := rotated_within h0 h1 ha hr hA hdA heps hq hlen hds hq' hA1
  have hcQ : 1 ≤ grow u (3 * L + 7 + B.length) * (1 + (eps + L * (Real.pi * (d + 8 * u)))) := by
    refine one_le_mul_of_one_le_of_one_le (grow_one_le h0 h1' _) ?_
    have : 0 ≤ (L : ℝ) * (Real.pi * (d + 8 * u)) := by positivity
    linarith
  have hw' : ∀ (l : ℕ) (m : ℤ), l ≤ L → m.natAbs ≤ L → Within (rotGrow u alpha gamma L * ((1 + relErr u (3 * L + 3 + A.length)) * (1 + (eps + L * (Real.pi * (d + 8 * u))))))
      (if m.natAbs ≤ l then (2 * L + 1) * 2 ^ L * absMass A * r ^ l * harmMax l else 0) (innerMoment A1 l m) (q'.get l m) := by
    intro l m hl hm
    have hH := harmMax_nonneg l
    refine (hw l m hl hm).mono hc le_rfl ?_
    by_cases hlm : m.natAbs ≤ l
    · rw [if_pos hlm, if_pos hlm]
      have e1 : (l : ℝ) ≤ L := by exact_mod_cast hl
      have e2 : (2 : ℝ) ^ l ≤ 2 ^ L := pow_le_pow_right₀ (by norm_num) hl
      calc (2 * (l : ℝ) + 1) * 2 ^ l * (absMass A * r ^ l * harmMax l) ≤ (2 * (L : ℝ) + 1) * 2 ^ L * (absMass A * r ^ l * harmMax l) := by gcongr
        _ = _ := by ring
    · rw [if_neg hlm, if_neg hlm]
  obtain ⟨A', f, T, k1, k2, k3⟩ := torque_of_within h0 h1' ha A1 B (K := (2 * L + 1) * 2 ^ L * absMass A) hr hrR
    (rotated_dist hA1 hA) hB (by positivity) hc hcQ hw' (fun l m hl hm => outer_within h0 h1 ha hdB heps hR hB hQ hl hm) hg ht angle htau
  refine ⟨A', f, T, k1, k2, k3.trans_eq ?_⟩
  have e1 : grow u (3 * L + 16) * (rotGrow u alpha gamma L * ((1 + relErr u (3 * L + 3 + A.length)) * (1 + (eps + L * (Real.pi * (d + 8 * u))))) *
      (grow u (3 * L + 7 + B.length) * (1 + (eps + L * (Real.pi * (d + 8 * u)))))) * (1 + u * (1 + L * |angle|)) - 1 = rotatedBudget u d eps alpha gamma L (A.length + B.length) angle := by
    rw [rotatedBudget, ← budget_split h1']; ring
  rw [e1, rotated_absMass hA1]; ring

/-! ## Runs exist -/

theorem factProd_exists (hT : Total a) (x y : ℤ) : ∃ g, FactProd a x y g := by
  obtain ⟨f, hf⟩ := hT.lib (spFactorial x)
  obtain ⟨f', hf'⟩ := hT.lib (spFactorial y)
  obtain ⟨g, hg⟩ := hT.op (f * f')
  exact ⟨g, f, f', hf, hf', hg⟩

theorem factRoot_exists (hT : Total a) (x y : ℤ) : ∃ g, FactRoot a x y g := by
  obtain ⟨g, hg⟩ := factProd_exists hT x y
  obtain ⟨r, hr⟩ := hT.op (Real.sqrt g)
  exact ⟨r, g, hg, hr⟩

theorem dTerm_exists (hT : Total a) (l : ℕ) (m n : ℤ) (beta : ℝ) (k : ℤ) : ∃ v, DTerm a l m n beta k v := by
  obtain ⟨c, hc⟩ := hT.lib (Real.cos (beta / 2))
  obtain ⟨s, hs⟩ := hT.lib (Real.sin (beta / 2))
  obtain ⟨cp, hcp⟩ := hT.lib (c ^ (2 * l + m - n - 2 * k).toNat)
  obtain ⟨sp, hsp⟩ := hT.lib (s ^ (n - m + 2 * k).toNat)
  obtain ⟨p, hp⟩ := hT.op ((-1) ^ k * cp * sp)
  obtain ⟨g, hg⟩ := factProd_exists hT k (l + m - k)
  obtain ⟨w, hw⟩ := hT.op (p / g)
  obtain ⟨h, hh⟩ := factProd_exists hT (l - n - k) (n - m + k)
  obtain ⟨v, hv⟩ := hT.op (w / h)
  exact ⟨v, c, s, cp, sp, p, g, w, h, hc, hs, hcp, hsp, hp, hg, hw, hh, hv⟩

theorem Dlmn_exists (hT : Total a) (l : ℕ) (m n : ℤ) (alpha beta gamma : ℝ) : ∃ D, Flt.Dlmn a l m n alpha beta gamma D := by
  obtain ⟨ts, hts⟩ := forall₂_exists (R := DTerm a l m n beta) (zrange (max (m - n) 0) (min (l + m) (l - n))) fun k _ => dTerm_exists hT l m n beta k
  obtain ⟨s, hs⟩ := adds_exists hT ts 0
  obtain ⟨p, hp⟩ := hT.op (alpha * n)
  obtain ⟨q, hq⟩ := hT.op (gamma * m)
  obtain ⟨y, hy⟩ := hT.op (p + q)
  obtain ⟨er, her⟩ := hT.lib (Real.cos y)
  obtain ⟨ei, hei⟩ := hT.lib (-Real.sin y)
  obtain ⟨z, hz⟩ := cscale_exists hT s ((⟨er, ei⟩ : ℂ) * (-1) ^ (n - m))
  obtain ⟨r, hr⟩ := factRoot_exists hT (l - m) (l + m)
  obtain ⟨w, hw⟩ := cscale_exists hT r z
  obtain ⟨r', hr'⟩ := factRoot_exists hT (l - n) (l + n)
  obtain ⟨D, hD⟩ := cscale_exists hT r' w
  exact ⟨D, ts, s, ⟨er, ei⟩, z, r, w, r', hts, hs, ⟨p, q, y, hp, hq, hy, her, hei⟩, hz, hr, hw, hr', hD⟩

theorem cdot_exists (hT : Total a) (l : ℕ) (D q : ℤ → ℂ) : ∃ z, CDot a l D q z := by
  have : ∀ P : List (ℝ × ℝ), ∃ s xs, List.Forall₂ (fun (i : ℝ × ℝ) x => Flt.Prod a i.1 i.2 x) P xs ∧ Flt.Sum a.op xs s := by
    intro P
    obtain ⟨xs, hxs⟩ := forall₂_exists (R := fun (i : ℝ × ℝ) x => Flt.Prod a i.1 i.2 x) P fun i _ => ⟨_, Or.inr rfl⟩
    obtain ⟨s, hs⟩ := sum_exists hT.op xs
    exact ⟨s, xs, hxs, hs⟩
  obtain ⟨s, hs⟩ := this (dotRe l D q)
  obtain ⟨t, ht⟩ := this (dotIm l D q)
  exact ⟨⟨s, t⟩, hs, ht⟩

/-- **C132 (runs exist).**  An arithmetic that answers every request computes the matrices for all angles, and rotates all moments with them. -/
theorem C132_returns (hT : Total a) {L : ℕ} (q : Mom L) (alpha beta gamma : ℝ) (cj : Bool) :
    ∃ (ds : List (ℤ → ℤ → ℂ)) (q' : Mom L), ds.length = L + 1 ∧ (∀ l, l ≤ L → Flt.Dl a l alpha beta gamma (ds.getD l 0)) ∧ Flt.rotate_qlm_Ds a q ds cj q' := by
  choose D hD using fun (l : ℕ) (m n : ℤ) => Dlmn_exists hT l m n alpha beta gamma
  set ds : List (ℤ → ℤ → ℂ) := (List.range (L + 1)).map fun l => fun n m => D l m n with hds
  have hlen : ds.length = L + 1 := by simp [hds]
  have hget : ∀ l, l ≤ L → ds.getD l 0 = fun n m => D l m n := by
    intro l hl
    rw [hds, List.getD_eq_getElem?_getD, List.getElem?_map, List.getElem?_range (by omega)]
    rfl
  choose f hf using fun (l : ℕ) (m : ℤ) => cdot_exists hT l (fun n => if cj then (starRingEnd ℂ) (ds.getD l 0 n m) else ds.getD l 0 m n) (fun n => q.get l n)
  refine ⟨ds, Mom.ofFn L fun l m => if 1 ≤ l ∧ m.natAbs ≤ l then f l m else q.get l m, hlen, fun l hl n m _ _ => ?_, Or.inr ⟨hlen, f, fun l m _ _ _ => hf l m, rfl⟩⟩
  rw [hget l hl]
  exact hD l m n

/-- **C132 (double precision).**  Up to degree 10, for angles up to two turns (13 radians), with every operation accurate to `2^-53`: the relative error of an entry is at most
`1.4e-13` of Wigner's sum without signs (absolutely at most `1.5e-10`), that of a rotated moment `1.6e-13`; there and back it is `3.3e-13`. -/
theorem C132_double {L : ℕ} (hL : L ≤ 10) {alpha gamma : ℝ} (hal : |alpha| ≤ 13) (hga : |gamma| ≤ 13) :
    wignerGrow ((2 : ℝ)⁻¹ ^ 53) alpha gamma L - 1 ≤ 1.4e-13 ∧ (wignerGrow ((2 : ℝ)⁻¹ ^ 53) alpha gamma L - 1) * 2 ^ L ≤ 1.5e-10 ∧
      rotGrow ((2 : ℝ)⁻¹ ^ 53) alpha gamma L - 1 ≤ 1.6e-13 ∧ rotGrow ((2 : ℝ)⁻¹ ^ 53) alpha gamma L ^ 2 - 1 ≤ 3.3e-13 := by
  have hu : (0 : ℝ) ≤ (2 : ℝ)⁻¹ ^ 53 := by positivity
  have hu1 : (2 : ℝ)⁻¹ ^ 53 < 1 := by norm_num
  have hL' : (L : ℝ) ≤ 10 := by exact_mod_cast hL
  have k1 : relErr ((2 : ℝ)⁻¹ ^ 53) (3 * L + 24) ≤ 1.2e-14 := (rel_double (n := 54) (by omega) (by norm_num)).trans (by norm_num)
  have k2 : relErr ((2 : ℝ)⁻¹ ^ 53) 2 ≤ 4.5e-16 := (rel_double (n := 2) le_rfl (by norm_num)).trans (by norm_num)
  have k3 : relErr ((2 : ℝ)⁻¹ ^ 53) (8 * L + 6) ≤ 1.92e-14 := (rel_double (n := 86) (by omega) (by norm_num)).trans (by norm_num)
  have j1 := relErr_nonneg hu hu1 (3 * L + 24)
  have j2 := relErr_nonneg hu hu1 2
  have j3 := relErr_nonneg hu hu1 (8 * L + 6)
  have k4 : relErr ((2 : ℝ)⁻¹ ^ 53) 2 * (L * (|alpha| + |gamma|)) ≤ 1.18e-13 := by
    calc relErr ((2 : ℝ)⁻¹ ^ 53) 2 * (L * (|alpha| + |gamma|)) ≤ 4.5e-16 * (10 * (13 + 13)) := by gcongr
      _ ≤ _ := by norm_num
  have j4 : 0 ≤ relErr ((2 : ℝ)⁻¹ ^ 53) 2 * (L * (|alpha| + |gamma|)) := by positivity
  have w1 : wignerGrow ((2 : ℝ)⁻¹ ^ 53) alpha gamma L ≤ 1 + 1.31e-13 := by
    rw [wignerGrow]
    calc _ ≤ (1 + 1.2e-14) * (1 + 1.18e-13 : ℝ) := by gcongr
      _ ≤ _ := by norm_num
  have w0 : 0 ≤ wignerGrow ((2 : ℝ)⁻¹ ^ 53) alpha gamma L := zero_le_one.trans (wignerGrow_one_le hu hu1 _ _ _)
  have r1 : rotGrow ((2 : ℝ)⁻¹ ^ 53) alpha gamma L ≤ 1 + 1.6e-13 := by
    rw [rotGrow]
    calc _ ≤ (1 + 1.31e-13) * (1 + 1.92e-14 : ℝ) := by gcongr
      _ ≤ _ := by norm_num
  have r0 : 0 ≤ rotGrow ((2 : ℝ)⁻¹ ^ 53) alpha gamma L := zero_le_one.trans (rotGrow_one_le hu hu1 _ _ _)
  refine ⟨by linarith, ?_, by linarith, ?_⟩
  · have : (2 : ℝ) ^ L ≤ 2 ^ 10 := pow_le_pow_right₀ (by norm_num) hL
    calc (wignerGrow ((2 : ℝ)⁻¹ ^ 53) alpha gamma L - 1) * 2 ^ L ≤ 1.31e-13 * 2 ^ 10 := by
          refine mul_le_mul (by linarith) this (by positivity) (by norm_num)
      _ ≤ _ := by norm_num
  · calc rotGrow ((2 : ℝ)⁻¹ ^ 53) alpha gamma L ^ 2 - 1 ≤ (1 + 1.6e-13) ^ 2 - 1 := by gcongr
      _ ≤ _ := by norm_num

/-- The hypotheses are met: in the arithmetic of double precision a quadrupole is rotated about all three axes and back. -/
example (q : Mom 2) : ∃ (ds : List (ℤ → ℤ → ℂ)) (q' q'' : Mom 2), Flt.rotate_qlm_Ds ieee53 q ds false q' ∧ Flt.rotate_qlm_Ds ieee53 q' ds true q'' ∧
    ‖q''.get 2 1 - q.get 2 1‖ ≤ 3e-11 * ∑ n ∈ Finset.Icc (-2 : ℤ) 2, ‖q.get 2 n‖ := by
  obtain ⟨ds, q', h1, h2, h3⟩ := C132_returns ieee53_total q 1 2 3 false
  choose f hf using fun (l : ℕ) (m : ℤ) => cdot_exists ieee53_total l (fun n => (starRingEnd ℂ) (ds.getD l 0 n m)) (fun n => q'.get l n)
  have h4 : Flt.rotate_qlm_Ds ieee53 q' ds true (Mom.ofFn 2 fun l m => if 1 ≤ l ∧ m.natAbs ≤ l then f l m else q'.get l m) :=
    Or.inr ⟨h1, f, fun l m _ _ _ => hf l m, rfl⟩
  refine ⟨ds, q', _, h3, h4, ?_⟩
  have hu : (0 : ℝ) ≤ (2 : ℝ)⁻¹ ^ 53 := by positivity
  have hu1 : (2 : ℝ)⁻¹ ^ 53 < 1 := by norm_num
  refine (C132_there_and_back hu hu1 ieee53_accurate h1 h2 h3 h4 (l := 2) (m := 1) le_rfl (by decide)).trans ?_
  have hd := (C132_double (L := 2) (by norm_num) (alpha := 1) (gamma := 3) (by norm_num) (by norm_num)).2.2.2
  have hS : 0 ≤ ∑ n ∈ Finset.Icc (-((2 : ℕ) : ℤ)) (2 : ℕ), ‖q.get 2 n‖ := Finset.sum_nonneg fun _ _ => norm_nonneg _
  rw [← mul_assoc]
  refine mul_le_mul_of_nonneg_right ?_ hS
  calc _ ≤ 3.3e-13 * ((2 * ((2 : ℕ) : ℝ) + 1) * 4 ^ 2) := mul_le_mul_of_nonneg_right hd (by positivity)
    _ ≤ _ := by norm_num

end Newt
