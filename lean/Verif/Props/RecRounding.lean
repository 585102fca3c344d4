import Verif.Proofs.RecRounding3
import Verif.Props.WigRounding
import Mathlib.Analysis.Complex.ExponentialBounds

/-!
# C133: rounding of the recursive Wigner matrices and of `rotate_qlm`
-/

namespace Newt

open Spec Flt

variable {a : Arith} {u : ℝ} {e : ℕ → ℝ}

theorem legAccurate_mono {leg : Leg} {eps : ℝ} {n p : ℕ} (h : n ≤ p) (hL : LegAccurate leg p eps) : LegAccurate leg n eps :=
  ⟨hL.1, fun m k x y hm hk hx hy => hL.2 m k x y hm (by omega) hx hy⟩

/-- The exact matrices. -/
theorem rec_exact {p : ℕ} (hp : p ≠ 0) {beta : ℝ} (hb : 0 ≤ beta) (hb' : beta ≤ Real.pi) : ∃ Hs, Newt.rotate_H_recurs p beta = some Hs ∧ Hs.length = p + 1 ∧
    ∀ (n : ℕ) (i j : ℤ), n ≤ p → i.natAbs ≤ n → j.natAbs ≤ n → Hs.getD n 0 i j = Ht n (Real.cos (beta / 2)) (Real.sin (beta / 2)) i j := by
  have hs : 0 ≤ Real.sin beta := Real.sin_nonneg_of_nonneg_of_le_pi hb hb'
  rw [Newt.rotate_H_recurs, if_neg hp]
  refine ⟨_, rfl, by simp, fun n i j hn hi hj => ?_⟩
  rw [List.getD_eq_getElem?_getD, List.getElem?_map, List.getElem?_range (by omega)]
  simp only [Option.map_some, Option.getD_some]
  split_ifs with h
  · subst h
    obtain rfl : i = 0 := by omega
    obtain rfl : j = 0 := by omega
    exact hInit_row 0 _ hs 0 le_rfl (by simp)
  · exact hFull_eq n (by omega) _ hs i j hi hj

/-- **C133 (the recursion).**  Every entry of the matrices that `rotate_H_recurs` returns in floating point arithmetic differs from the exact one by at most `recErr`: three times the
error of the starting values (and 35 units in the last place) for every degree of the matrix a factor of three. -/
theorem C133_recursion (h0 : 0 ≤ u) (hu : u ≤ 1 / 1000) (ha : Accurate a u e) (hU : UnitSafe a) {leg : Leg} {eps d : ℝ} {p : ℕ} (hL : LegAccurate leg (p + 1) eps)
    {beta : ℝ} (hb : 0 ≤ beta) (hb' : beta ≤ Real.pi) (hd : AngleAccuracy u beta d) {H : ℕ → CMat} (hH : Flt.rotate_H_recurs a leg p beta H) :
    ∃ Hs, Newt.rotate_H_recurs p beta = some Hs ∧ Hs.length = p + 1 ∧ ∀ (n : ℕ) (i j : ℤ), n ≤ p → i.natAbs ≤ n → j.natAbs ≤ n →
      |H n i j - Hs.getD n 0 i j| ≤ recErr u eps d n := by
  obtain ⟨Hs, h1, h2, h3⟩ := rec_exact hH.1 hb hb'
  refine ⟨Hs, h1, h2, fun n i j hn hi hj => ?_⟩
  rw [h3 n i j hn hi hj]
  exact rec_err h0 hu ha hU (legAccurate_mono (by omega) hL) hn hb hb' hd hH hi hj

/-- **C133 (the angle of a rounded cosine).**  The angle `beta` is known to the recursion through its rounded cosine only: up to `pi sqrt(u/2)` for any angle in `[0, pi]`, and up to
`pi u |cot beta|` once `sin beta` exceeds that. -/
theorem C133_angle (h0 : 0 ≤ u) {beta : ℝ} (hb : 0 ≤ beta) (hb' : beta ≤ Real.pi) : AngleAccuracy u beta (Real.pi * Real.sqrt (u / 2)) ∧
    (Real.pi * Real.sqrt (u / 2) ≤ Real.sin beta → 0 < Real.sin beta → AngleAccuracy u beta (Real.pi * u * |Real.cos beta| / Real.sin beta)) :=
  ⟨angle_always h0 hb hb', angle_middle h0 hb hb'⟩

theorem expI_within (h0 : 0 ≤ u) (h1 : u < 1) (ha : Accurate a u e) {l : ℕ} {m : ℤ} (hm : m.natAbs ≤ l) {alpha : ℝ} {E : ℂ} (h : ExpI a m alpha E) :
    Within ((1 + u * (l * |alpha|)) * grow u 1) 1 (Complex.exp (-Complex.I * m * alpha)) E := by
  obtain ⟨y, hy, hre, him⟩ := h
  have b1 : |(m : ℝ)| ≤ l := by rw [← Int.cast_abs, Int.abs_eq_natAbs]; exact_mod_cast hm
  have a5 : |y - m * alpha| ≤ u * (l * |alpha|) := by
    refine (ha.op _ _ hy).trans (mul_le_mul_of_nonneg_left ?_ h0)
    rw [abs_mul]
    exact mul_le_mul_of_nonneg_right b1 (abs_nonneg _)
  rw [show -Complex.I * (m : ℂ) * alpha = -Complex.I * ((m * alpha : ℝ) : ℂ) by push_cast; ring, phase_exp]
  refine Within.op h0 h1 (y := ⟨Real.cos y, -Real.sin y⟩) ⟨(phase_norm _).le, ?_⟩ ?_
  · rw [add_sub_cancel_left, mul_one]
    exact (phase_lip _ _).trans a5
  · refine abs_le_of_sq_le_sq' ?_ (by positivity) |>.2
    have k1 := ha.lib _ _ hre
    have k2 := ha.lib _ _ him
    rw [phase_norm, mul_one, ← Complex.normSq_eq_norm_sq, Complex.normSq_apply, Complex.sub_re, Complex.sub_im]
    have h3 : (E.re - Real.cos y) ^ 2 ≤ (u * |Real.cos y|) ^ 2 := sq_le_sq' (by linarith [(abs_le.1 k1).1]) (abs_le.1 k1).2
    have h4 : (E.im - -Real.sin y) ^ 2 ≤ (u * |-Real.sin y|) ^ 2 := sq_le_sq' (by linarith [(abs_le.1 k2).1]) (abs_le.1 k2).2
    rw [mul_pow, sq_abs] at h3 h4
    have := Real.sin_sq_add_cos_sq y
    simp only
    nlinarith

theorem epsm_abs (m : ℤ) : |epsm m| = 1 := by
  have h := epsm_sq m
  have h2 : |epsm m| * |epsm m| = 1 := by rw [← abs_mul, h, abs_one]
  nlinarith [abs_nonneg (epsm m)]

theorem recErr_nonneg (h0 : 0 ≤ u) (h1 : u < 1) {eps d : ℝ} (he : 0 ≤ eps) (hd : 0 ≤ d) (n : ℕ) : 0 ≤ recErr u eps d n := by
  have := startErr_nonneg h0 h1 he hd n
  rw [recErr]; positivity

theorem recGrow_one_le (h0 : 0 ≤ u) (h1 : u < 1) {eps d : ℝ} (he : 0 ≤ eps) (hd : 0 ≤ d) (alpha gamma : ℝ) (n : ℕ) : 1 ≤ recGrow u eps d alpha gamma n := by
  rw [recGrow]
  have a1 := recErr_nonneg h0 h1 he hd n
  have a2 : 0 ≤ u * (n * |alpha|) := by positivity
  have a3 : 0 ≤ u * (n * |gamma|) := by positivity
  exact one_le_mul_of_one_le_of_one_le (by linarith) (one_le_mul_of_one_le_of_one_le (one_le_mul_of_one_le_of_one_le (by linarith) (by linarith)) (grow_one_le h0 h1 10))

theorem rec_within (h0 : 0 ≤ u) (hu : u ≤ 1 / 1000) (ha : Accurate a u e) (hU : UnitSafe a) {leg : Leg} {eps d : ℝ} {L l : ℕ} (hL : LegAccurate leg (l + 1) eps) (hl : l ≤ L)
    {alpha beta gamma s : ℝ} (hs1 : |s| = 1) (hb : 0 ≤ beta) (hb' : beta ≤ Real.pi) (hd : AngleAccuracy u beta d) {D : ℕ → ℤ → ℤ → ℂ} (h : Flt.wignerMat a leg L alpha beta gamma s D) {i j : ℤ}
    (hi : i.natAbs ≤ l) (hj : j.natAbs ≤ l) : Within (recGrow u eps d alpha gamma l) 1 (((s ^ i.natAbs * s ^ j.natAbs : ℝ) : ℂ) * bigD l alpha beta gamma i j) (D l i j) := by
  obtain ⟨H, hH, hD⟩ := h
  have h1 : u < 1 := by linarith
  have G := grow_one_le h0 h1
  obtain ⟨E, F, z, hE, hF, hz, hm⟩ := hD l i j hl hi hj
  have wE := expI_within h0 h1 ha hi hE
  have wF := expI_within h0 h1 ha hj hF
  have p1 : 0 ≤ u * (l * |alpha|) := by positivity
  have p2 : 0 ≤ u * (l * |gamma|) := by positivity
  have cE : 1 ≤ (1 + u * (l * |alpha|)) * grow u 1 := one_le_mul_of_one_le_of_one_le (by linarith) (G 1)
  have wz := (wE.mul wF cE).round (relErr_nonneg h0 h1 4) (cmul_err h0 h1 ha hz)
  set t : ℝ := s ^ i.natAbs * s ^ j.natAbs with ht
  have ht1 : |t| = 1 := by rw [ht, abs_mul, abs_pow, abs_pow, hs1, one_pow, one_pow, one_mul]
  have hs : ‖((epsm i * epsm (-j) * t : ℝ) : ℂ)‖ = 1 := by rw [Complex.norm_real, Real.norm_eq_abs, abs_mul, abs_mul, epsm_abs, epsm_abs, one_mul, ht1, one_mul]
  have ws : Within 1 1 ((epsm i * epsm (-j) * t : ℝ) : ℂ) ((epsm i * epsm (-j) * t : ℝ) : ℂ) := Within.refl hs.le le_rfl
  have wH : Within (1 + recErr u eps d l) 1 ((Ht l (Real.cos (beta / 2)) (Real.sin (beta / 2)) i j : ℝ) : ℂ) (H l i j : ℂ) := by
    refine Within.ofReal ⟨by rw [Real.norm_eq_abs]; exact Ht_abs_le (Real.cos_sq_add_sin_sq _) hi hj, ?_⟩
    rw [Real.norm_eq_abs, add_sub_cancel_left, mul_one]
    exact rec_err h0 hu ha hU hL hl hb hb' hd hH hi hj
  have q0 := recErr_nonneg h0 h1 hL.1 hd.1 l
  have w := (wH.mul (ws.mul wz le_rfl) (by linarith)).round (relErr_nonneg h0 h1 4) (cmul_err h0 h1 ha hm)
  have e1 : ((Ht l (Real.cos (beta / 2)) (Real.sin (beta / 2)) i j : ℝ) : ℂ) * (((epsm i * epsm (-j) * t : ℝ) : ℂ) * (Complex.exp (-Complex.I * i * alpha) * Complex.exp (-Complex.I * j * gamma))) =
      (t : ℂ) * bigD l alpha beta gamma i j := by
    have e1 : ((epsm i : ℝ) : ℂ) * (epsm i : ℝ) = 1 := by exact_mod_cast epsm_sq i
    have e2 : ((epsm (-j) : ℝ) : ℂ) * (epsm (-j) : ℝ) = 1 := by exact_mod_cast epsm_sq (-j)
    rw [Ht, bigD, smalld]
    push_cast
    linear_combination ((t : ℂ) * ((dcs (Real.cos (beta / 2)) (Real.sin (beta / 2)) l i j : ℝ) : ℂ) * Complex.exp (-Complex.I * i * alpha) * Complex.exp (-Complex.I * j * gamma)) *
      (e1 * (((epsm (-j) : ℝ) : ℂ) * (epsm (-j) : ℝ)) + e2)
  rw [e1] at w
  have e3 : (1 + recErr u eps d l) * (1 * ((1 + u * (l * |alpha|)) * grow u 1 * ((1 + u * (l * |gamma|)) * grow u 1) * (1 + relErr u 4))) * (1 + relErr u 4) = recGrow u eps d alpha gamma l := by
    rw [recGrow, show 1 + relErr u 10 = grow u (1 + 1 + 4 + 4) from rfl, ← grow_add h1, ← grow_add h1, ← grow_add h1, show 1 + relErr u 4 = grow u 4 from rfl]
    ring
  rw [e3] at w
  exact w.mono (recGrow_one_le h0 h1 hL.1 hd.1 _ _ _) le_rfl (by norm_num)

theorem wigGrow_one_le (h0 : 0 ≤ u) (h1 : u < 1) {eps d : ℝ} (he : 0 ≤ eps) (hd : 0 ≤ d) (alpha beta gamma : ℝ) (n : ℕ) : 1 ≤ wigGrow u eps d alpha beta gamma n := by
  have a1 := recGrow_one_le h0 h1 he hd alpha gamma n
  have a2 : 0 ≤ (n + 1) * turnErr u beta := mul_nonneg (by positivity) (turnErr_nonneg h0 beta)
  rw [wigGrow]; linarith

theorem exp_unit (m : ℤ) (x : ℝ) : ‖Complex.exp (-Complex.I * m * x)‖ = 1 := by
  rw [show -Complex.I * (m : ℂ) * x = -Complex.I * ((m * x : ℝ) : ℂ) by push_cast; ring, phase_exp, phase_norm]

/-- The entries for any angle. -/
theorem wig_within (h0 : 0 ≤ u) (hu : u ≤ 1 / 1000) (ha : Accurate a u e) (hU : UnitSafe a) {pi0 : ℝ} (hp : HalfTurn a u pi0) {leg : Leg} {eps d : ℝ} {L l : ℕ}
    (hL : LegAccurate leg (l + 1) eps) (hl : l ≤ L) {alpha beta gamma : ℝ} (hd : TurnAccuracy u beta d) {D : ℕ → ℤ → ℤ → ℂ} (h : Flt.wignerDl a leg pi0 L alpha beta gamma D) {i j : ℤ}
    (hi : i.natAbs ≤ l) (hj : j.natAbs ≤ l) : Within (wigGrow u eps d alpha beta gamma l) 1 (bigD l alpha beta gamma i j) (D l i j) := by
  obtain ⟨b, s, hr, hm⟩ := h
  obtain ⟨hb, hb', k, hk⟩ := reduce_err h0 hu ha hp hr
  have hs : |s| = 1 := by rcases hk with ⟨rfl, -⟩ | ⟨rfl, -⟩ <;> simp
  have w := (rec_within h0 hu ha hU hL hl hs hb hb' (hd.2 b hb hb' (reduced_sin h0 hu ha hp hr)) hm hi hj).2
  have g := reduced_gap h0 hu ha hp hr hi hj
  have e1 : ‖((s ^ i.natAbs * s ^ j.natAbs : ℝ) : ℂ) * bigD l alpha b gamma i j - bigD l alpha beta gamma i j‖ = |s ^ i.natAbs * s ^ j.natAbs * smalld l b i j - smalld l beta i j| := by
    rw [bigD, bigD, show ((s ^ i.natAbs * s ^ j.natAbs : ℝ) : ℂ) * (Complex.exp (-Complex.I * i * alpha) * ((smalld l b i j : ℝ) : ℂ) * Complex.exp (-Complex.I * j * gamma)) -
      Complex.exp (-Complex.I * i * alpha) * ((smalld l beta i j : ℝ) : ℂ) * Complex.exp (-Complex.I * j * gamma) =
      Complex.exp (-Complex.I * i * alpha) * ((s ^ i.natAbs * s ^ j.natAbs * smalld l b i j - smalld l beta i j : ℝ) : ℂ) * Complex.exp (-Complex.I * j * gamma) by push_cast; ring,
      norm_mul, norm_mul, exp_unit, exp_unit, one_mul, mul_one, Complex.norm_real, Real.norm_eq_abs]
  refine ⟨?_, ?_⟩
  · rw [bigD, norm_mul, norm_mul, exp_unit, exp_unit, one_mul, mul_one, Complex.norm_real, Real.norm_eq_abs]
    exact smalld_abs_le hi hj beta
  · rw [mul_one] at w ⊢
    have e2 : D l i j - bigD l alpha beta gamma i j = (D l i j - ((s ^ i.natAbs * s ^ j.natAbs : ℝ) : ℂ) * bigD l alpha b gamma i j) +
      (((s ^ i.natAbs * s ^ j.natAbs : ℝ) : ℂ) * bigD l alpha b gamma i j - bigD l alpha beta gamma i j) := by ring
    rw [e2, wigGrow]
    have t := norm_add_le (D l i j - ((s ^ i.natAbs * s ^ j.natAbs : ℝ) : ℂ) * bigD l alpha b gamma i j)
      (((s ^ i.natAbs * s ^ j.natAbs : ℝ) : ℂ) * bigD l alpha b gamma i j - bigD l alpha beta gamma i j)
    rw [e1] at t
    linarith

/-- **C133 (the angle of a rounded cosine, any angle).**  After the reduction to `[0, pi]` the same holds: up to `pi sqrt(u/2)` for any angle, and up to `pi u / t` if `|sin beta|` exceeds `t`,
not less than that, by more than the error of the reduction. -/
theorem C133_turn (h0 : 0 ≤ u) (beta : ℝ) : TurnAccuracy u beta (Real.pi * Real.sqrt (u / 2)) ∧
    ∀ t, 0 < t → Real.pi * Real.sqrt (u / 2) ≤ t → t + turnErr u beta ≤ |Real.sin beta| → TurnAccuracy u beta (Real.pi * u / t) := by
  have hpi := Real.pi_pos
  refine ⟨⟨by positivity, fun b hb hb' _ => (C133_angle h0 hb hb').1⟩, fun t ht h1 h2 => ⟨by positivity, fun b hb hb' h => ?_⟩⟩
  have hs : t ≤ Real.sin b := by linarith [(abs_le.1 h).1]
  have k := (C133_angle h0 hb hb').2 (h1.trans hs) (ht.trans_le hs)
  refine ⟨by positivity, fun c hc hc' => (k.2 c hc hc').trans ?_⟩
  have hc1 := Real.abs_cos_le_one b
  calc Real.pi * u * |Real.cos b| / Real.sin b ≤ Real.pi * u * 1 / t := by gcongr
    _ = _ := by rw [mul_one]

/-- **C133 (`np.pi`).**  In double precision `np.pi` is as required. -/
theorem C133_npPi (hop : ∀ x y, a.op x y → Nearest 53 x y) : HalfTurn a ((2 : ℝ)⁻¹ ^ 53) npPi := npPi_halfTurn hop

/-- **C133 (the matrices).**  Every entry of the matrices that `wignerDl` returns in floating point arithmetic differs from the exact one by at most the growth factor less one. -/
theorem C133_wigner (h0 : 0 ≤ u) (hu : u ≤ 1 / 1000) (ha : Accurate a u e) (hU : UnitSafe a) {leg : Leg} {eps d : ℝ} {L : ℕ} (hL : LegAccurate leg (L + 1) eps)
    {pi0 : ℝ} (hp : HalfTurn a u pi0) {alpha beta gamma : ℝ} (hd : TurnAccuracy u beta d) {D : ℕ → ℤ → ℤ → ℂ} (h : Flt.wignerDl a leg pi0 L alpha beta gamma D) :
    ∃ Ds, Newt.wignerDl L alpha beta gamma = some Ds ∧ Ds.length = L + 1 ∧ ∀ (l : ℕ) (i j : ℤ), l ≤ L → i.natAbs ≤ l → j.natAbs ≤ l →
      ‖D l i j - Ds.getD l 0 i j‖ ≤ wigGrow u eps d alpha beta gamma l - 1 := by
  have hL0 : 1 ≤ L := by
    obtain ⟨_, _, -, H, ⟨hne, -⟩, -⟩ := h
    omega
  obtain ⟨Ds, k1, k2, k3⟩ := wignerDl_some L hL0 alpha beta gamma
  refine ⟨Ds, k1, k2, fun l i j hl hi hj => ?_⟩
  rw [k3 l i j hl hi hj]
  have := (wig_within h0 hu ha hU hp (legAccurate_mono (by omega) hL) hl hd h hi hj).2
  rwa [mul_one] at this

/-- **C133 (rotated moments).**  The moments that `rotate_qlm` returns in floating point arithmetic differ from the exact ones by at most the growth factor less one times the sum of
the moduli of the moments of the same degree; the monopole and whatever is stored outside of the triangle are returned unchanged. -/
theorem C133_rotate (h0 : 0 ≤ u) (hu : u ≤ 1 / 1000) (ha : Accurate a u e) (hU : UnitSafe a) {leg : Leg} {eps d : ℝ} {L : ℕ} (hL : LegAccurate leg (L + 2) eps)
    {pi0 : ℝ} (hp : HalfTurn a u pi0) {alpha beta gamma : ℝ} (hd : TurnAccuracy u beta d) {q q' : Mom L} (h : Flt.rotate_qlm a leg pi0 q alpha beta gamma q') :
    ∃ q0, Newt.rotate_qlm q alpha beta gamma = some q0 ∧
      (∀ (l : ℕ) (m : ℤ), l ≤ L → m.natAbs ≤ l →
        ‖q'.get l m - q0.get l m‖ ≤ (wigGrow u eps d alpha beta gamma l * (1 + relErr u (8 * l + 6)) - 1) * ∑ n ∈ Finset.Icc (-(l : ℤ)) l, ‖q.get l n‖) ∧
      q'.get 0 0 = q.get 0 0 ∧ ∀ (l : ℕ) (m : ℤ), l ≤ L → m.natAbs ≤ L → l < m.natAbs → q'.get l m = q.get l m := by
  have h1 : u < 1 := by linarith
  obtain ⟨q0, k1, k2⟩ := rotate_entry q alpha beta gamma false
  simp only [Bool.false_eq_true, if_false] at k1 k2
  obtain ⟨D, f, hD, hf, rfl⟩ := h
  refine ⟨q0, k1, fun l m hl hm => ?_, ?_, fun l m hl hm hlm => ?_⟩
  · have G := wigGrow_one_le h0 h1 hL.1 hd.1 alpha beta gamma l
    rw [k2 l m hl (by omega), if_pos hm, Mom.get_ofFn _ hl (by omega)]
    by_cases hl1 : 1 ≤ l
    · rw [if_pos ⟨hl1, hm⟩]
      have w := cdot_within h0 h1 ha (D0 := fun n => bigD l alpha beta gamma m n) (q0 := fun n => q.get l n) (wD := fun _ => 1) (wq := fun n => ‖q.get l n‖) G
        (fun n hn => wig_within h0 hu ha hU hp (legAccurate_mono (by omega) hL) (by omega) hd hD hm hn) (fun n _ => Within.refl (c := 1) le_rfl le_rfl) (hf l m hl1 hl hm)
      have := w.2
      simp only [mul_one, one_mul] at this
      exact this
    · obtain rfl : l = 0 := by omega
      obtain rfl : m = 0 := by omega
      rw [if_neg (by omega)]
      simp only [Nat.cast_zero, neg_zero, Finset.Icc_self, Finset.sum_singleton, bigD_zero, one_mul, sub_self, norm_zero]
      have := one_le_mul_of_one_le_of_one_le G (grow_one_le h0 h1 (8 * 0 + 6))
      rw [grow] at this
      exact mul_nonneg (by linarith) (norm_nonneg _)
  · rw [Mom.get_ofFn _ (by omega) (by simp), if_neg (by simp)]
  · rw [Mom.get_ofFn _ hl hm, if_neg (by omega)]

/-- **C133 (two algorithms).**  The recursion and the explicit formula, both in floating point arithmetic, agree up to their errors. -/
theorem C133_agree (h0 : 0 ≤ u) (hu : u ≤ 1 / 1000) (ha : Accurate a u e) (hU : UnitSafe a) {leg : Leg} {eps d : ℝ} {L l : ℕ} (hL : LegAccurate leg (l + 1) eps) (hl : l ≤ L)
    {pi0 : ℝ} (hp : HalfTurn a u pi0) {alpha beta gamma : ℝ} (hd : TurnAccuracy u beta d) {D : ℕ → ℤ → ℤ → ℂ} (h : Flt.wignerDl a leg pi0 L alpha beta gamma D)
    {D' : ℤ → ℤ → ℂ} (h' : Flt.Dl a l alpha beta gamma D') {i j : ℤ} (hi : i.natAbs ≤ l) (hj : j.natAbs ≤ l) :
    ‖D l i j - D' i j‖ ≤ (wigGrow u eps d alpha beta gamma l - 1) + (wignerGrow u alpha gamma l - 1) * 2 ^ l := by
  have h1 : u < 1 := by linarith
  have k1 := (wig_within h0 hu ha hU hp hL hl hd h hi hj).2
  obtain ⟨k2, k3⟩ := C132_entry h0 h1 ha h' hi hj
  rw [Newt.Dl, Dlmn_eq l j i hj hi] at k2
  rw [mul_one] at k1
  have k4 := k2.trans (mul_le_mul_of_nonneg_left k3 (by linarith [wignerGrow_one_le h0 h1 alpha gamma l]))
  calc ‖D l i j - D' i j‖ = ‖(D l i j - bigD l alpha beta gamma i j) - (D' i j - bigD l alpha beta gamma i j)‖ := by congr 1; ring
    _ ≤ _ := (norm_sub_le _ _).trans (add_le_add k1 k4)

/-- **C133 (no rounding, no error).**  In exact arithmetic `rotate_qlm` returns the exact result. -/
theorem C133_exact (ha : Accurate a 0 e) (hU : UnitSafe a) {leg : Leg} {L : ℕ} (hL : LegAccurate leg (L + 2) 0) {pi0 : ℝ} (hp : HalfTurn a 0 pi0) {alpha beta gamma : ℝ} {q q' : Mom L}
    (h : Flt.rotate_qlm a leg pi0 q alpha beta gamma q') : Newt.rotate_qlm q alpha beta gamma = some q' := by
  have hd : TurnAccuracy 0 beta 0 := ⟨le_rfl, fun b hb hb' _ => ⟨le_rfl, fun c _ h => by
    rw [zero_mul] at h
    rw [sub_eq_zero.1 (abs_eq_zero.1 (le_antisymm h (abs_nonneg _))), Real.arccos_cos hb hb', sub_self, abs_zero]⟩⟩
  obtain ⟨q0, k1, k2, k3, k4⟩ := C133_rotate le_rfl (by norm_num) ha hU hL hp hd h
  have hr : ∀ k, relErr 0 k = 0 := fun k => by simp [relErr]
  rw [k1]
  congr 1
  apply Mom.ext_get
  intro l m hl hm
  by_cases hml : m.natAbs ≤ l
  · have := k2 l m hl hml
    rw [wigGrow, recGrow, recErr, startErr, turnErr, hr, hr, hr, hr] at this
    simp only [zero_mul, Real.exp_zero, add_zero, mul_zero, sub_self, mul_one] at this
    exact (sub_eq_zero.1 (norm_eq_zero.1 (le_antisymm this (norm_nonneg _)))).symm
  · obtain ⟨q1, j1, j2⟩ := rotate_entry q alpha beta gamma false
    simp only [Bool.false_eq_true, if_false] at j1
    rw [k1] at j1
    obtain rfl := Option.some.inj j1
    rw [j2 l m hl hm, if_neg hml, k4 l m hl hm (by omega)]

/-! ## Small tilts -/

theorem tilt_start (ha : Accurate a u e) {leg : Leg} (hleg : ∀ m k p, 1 ≤ m → leg m k 1 p → p = 0) {k m : ℕ} (hm : 1 ≤ m) {h : ℝ} (hs : Start a leg k m 1 h) : h = 0 := by
  obtain ⟨g, g', d, x, r, p, -, -, -, -, -, hp, hh⟩ := hs
  rw [hleg m k p hm hp, mul_zero] at hh
  exact op_zero ha hh

theorem tilt_copy (ha : Accurate a u e) {n : ℕ} {M M' : CMat} (h : CopyTri a n M M') {i j : ℤ} (hi : i.natAbs ≤ n) (hj : j.natAbs ≤ n) (hij : i ≠ j) (h1 : M i j = 0) (h2 : M j i = 0) :
    M' i j = 0 := by
  obtain ⟨s, hs, hv⟩ := h i j hi hj
  rw [h1, h2, add_zero] at hs
  rw [if_neg hij, op_zero ha hs, sub_zero] at hv
  exact op_zero ha hv

/-- If the cosine is rounded to one, the row and the column of order 0 vanish outside of the diagonal. -/
theorem tilt_matrix (ha : Accurate a u e) {leg : Leg} (hleg : ∀ m k p, 1 ≤ m → leg m k 1 p → p = 0) {p : ℕ} {beta : ℝ} (hone : ∀ c, a.lib (Real.cos beta) c → c = 1)
    {H : ℕ → CMat} (h : Flt.rotate_H_recurs a leg p beta H) {n : ℕ} (hn1 : 1 ≤ n) (hn : n ≤ p) {m : ℤ} (hm : m ≠ 0) (hmn : m.natAbs ≤ n) : H n 0 m = 0 ∧ H n m 0 = 0 := by
  obtain ⟨-, cb, sb, row, hcb, -, hst, -, hw⟩ := h
  obtain rfl := hone cb hcb
  obtain ⟨W, hW, M, M', h1, h2, hH⟩ := hw n hn1 hn
  have z1 : ∀ k : ℤ, k ≠ 0 → k.natAbs ≤ n → W 0 k = 0 ∧ W k 0 = 0 := fun k hk hkn => by
    refine ⟨?_, hW.zero k 0 (by omega)⟩
    by_cases hp : 0 ≤ k
    · obtain ⟨j, rfl⟩ := Int.eq_ofNat_of_zero_le hp
      have := hW.row0 j (by omega)
      rw [this]
      exact tilt_start ha hleg (by omega) (hst n j (by omega) (by omega))
    · exact hW.zero 0 k (by omega)
  have z2 : ∀ k : ℤ, k ≠ 0 → k.natAbs ≤ n → M 0 k = 0 ∧ M k 0 = 0 := fun k hk hkn =>
    ⟨tilt_copy ha h1 (by omega) hkn (by omega) (z1 k hk hkn).1 (z1 k hk hkn).2, tilt_copy ha h1 hkn (by omega) hk (z1 k hk hkn).2 (z1 k hk hkn).1⟩
  have y1 := z2 m hm hmn
  have y2 := z2 (-m) (by omega) (by omega)
  rw [hH]
  constructor
  · refine tilt_copy ha h2 hmn (by omega) (by omega) ?_ ?_ <;> simp only [rot90inv, neg_zero, neg_neg]
    exacts [y1.1, y2.2]
  · refine tilt_copy ha h2 (by omega) (by omega) (by omega) ?_ ?_ <;> simp only [rot90inv, neg_zero, neg_neg]
    exacts [y1.2, y2.1]

/-- The floating point number before one is `1 - 2^-53`. -/
theorem nearest_to_one {x y : ℝ} (h : Nearest 53 x y) (h1 : x ≤ 1) (h2 : 1 - 1 / 2 ^ 55 ≤ x) : y = 1 := by
  have hy1 : y ≤ 1 := nearest_le h (rep_one (by norm_num)) h1
  have hd := h.2 1 (rep_one (by norm_num))
  rw [abs_of_nonneg (by linarith : (0 : ℝ) ≤ 1 - x)] at hd
  have hy2 : 1 - 1 / 2 ^ 54 ≤ y := by
    have := (abs_le.1 hd).1
    have e : (1 : ℝ) / 2 ^ 54 = 2 * (1 / 2 ^ 55) := by norm_num
    rw [e]; linarith
  obtain ⟨k, t, hk, hyk⟩ := h.1
  by_contra hne
  have hlt : y < 1 := lt_of_le_of_ne hy1 hne
  rcases le_or_gt (-53) t with ht | ht
  · obtain ⟨s, rfl⟩ : ∃ s : ℕ, t = -53 + s := ⟨(t + 53).toNat, by omega⟩
    have e1 : y * 2 ^ 53 = ((k * 2 ^ s : ℤ) : ℝ) := by
      rw [hyk, zpow_add₀ (by norm_num), zpow_natCast]
      push_cast
      rw [show ((2 : ℝ) ^ (-53 : ℤ)) = (2 ^ 53)⁻¹ by rw [zpow_neg]; norm_cast]
      field_simp
    have e2 : ((k * 2 ^ s : ℤ) : ℝ) < ((2 ^ 53 : ℤ) : ℝ) := by
      rw [← e1]; push_cast; nlinarith
    have e3 : k * 2 ^ s ≤ 2 ^ 53 - 1 := by
      have := Int.cast_lt.1 e2
      omega
    have e4 : ((k * 2 ^ s : ℤ) : ℝ) ≤ ((2 ^ 53 - 1 : ℤ) : ℝ) := Int.cast_le.2 e3
    rw [← e1] at e4
    push_cast at e4
    norm_num at e4 hy2
    linarith
  · have e1 : (2 : ℝ) ^ t ≤ 2 ^ (-54 : ℤ) := zpow_le_zpow_right₀ (by norm_num) (by omega)
    have e2 : (k : ℝ) ≤ 2 ^ 53 := by
      have : k < 2 ^ 53 := lt_of_le_of_lt (le_abs_self k) hk
      exact_mod_cast this.le
    have e3 : y ≤ 2 ^ 53 * 2 ^ (-54 : ℤ) := by
      rw [hyk]
      exact mul_le_mul e2 e1 (by positivity) (by positivity)
    have e4 : (2 : ℝ) ^ 53 * 2 ^ (-54 : ℤ) = 1 / 2 := by
      rw [show ((2 : ℝ) ^ (-54 : ℤ)) = (2 ^ 54)⁻¹ by rw [zpow_neg]; norm_cast]
      norm_num
    rw [e4] at e3
    norm_num at hy2
    linarith

theorem cos_to_one {beta : ℝ} (h0 : 0 ≤ beta) (hb : beta ≤ 1 / 2 ^ 27) {c : ℝ} (h : Nearest 53 (Real.cos beta) c) : c = 1 := by
  refine nearest_to_one h (Real.cos_le_one _) ?_
  have h1 := Real.one_sub_sq_div_two_le_cos (x := beta)
  have h2 : beta ^ 2 ≤ (1 / 2 ^ 27) ^ 2 := pow_le_pow_left₀ h0 hb 2
  norm_num at h2 ⊢
  linarith

theorem cmul_zero (h0 : 0 ≤ u) (h1 : u < 1) (ha : Accurate a u e) {w v : ℂ} (h : CMul a 0 w v) : v = 0 := by
  have := cmul_err h0 h1 ha h
  simpa using this

theorem small_entry (beta : ℝ) (hs : 0 ≤ Real.sin beta) (alpha gamma : ℝ) : ‖bigD 1 alpha beta gamma 1 0‖ = Real.sin beta / Real.sqrt 2 := by
  have h1 := hInit_val (k := 1) (m := 1) le_rfl beta
  rw [Nat.cast_one, hInit_row 1 beta hs 1 (by omega) (by omega), Ht_symm 1 0 1 (by simp) (by simp), Ht] at h1
  have hl : lpmv 1 1 (Real.cos beta) = -Real.sin beta := by
    rw [lpmv, ← Real.sin_sq, Real.sqrt_sq hs]
    simp [legendreP]
    norm_num
  rw [hl] at h1
  have h2 : |epsm 1 * epsm (-0) * dcs (Real.cos (beta / 2)) (Real.sin (beta / 2)) 1 1 0| = Real.sin beta / Real.sqrt 2 := by
    rw [h1]
    simp [abs_of_nonneg hs, abs_of_nonneg (Real.sqrt_nonneg 2)]
    ring
  rw [abs_mul, abs_mul, epsm_abs, epsm_abs, one_mul, one_mul] at h2
  have e1 : ∀ (m : ℤ) (x : ℝ), ‖Complex.exp (-Complex.I * m * x)‖ = 1 := fun m x => by
    rw [show -Complex.I * (m : ℂ) * x = -Complex.I * ((m * x : ℝ) : ℂ) by push_cast; ring, phase_exp, phase_norm]
  rw [bigD, smalld, norm_mul, norm_mul, e1, e1, one_mul, mul_one, Complex.norm_real, Real.norm_eq_abs, h2]

/-- **C133 (small tilts are lost).**  If the library rounds cosines to nearest (53 digits) and its associated Legendre functions of order `m >= 1` vanish at 1, then for every angle
`0 < beta <= 2^-27` (`7.4e-9`) all entries of the computed matrices with one order equal to zero and the other not are exactly zero, and `rotate_qlm` turns the moments of a body of
revolution about the z axis into moments of a body of revolution about the z axis; exactly, the tilt changes the moment of degree 1 and order 1 by `sin(beta)/sqrt(2)` of that of order 0. -/
theorem C133_small_tilt (h0 : 0 ≤ u) (hu : u ≤ 1 / 1000) (ha : Accurate a u e) (hlib : ∀ x y, a.lib x y → Nearest 53 x y) {leg : Leg} (hleg : ∀ m k p, 1 ≤ m → leg m k 1 p → p = 0)
    {pi0 : ℝ} (hp : HalfTurn a u pi0) {L : ℕ} {alpha beta gamma : ℝ} (hb : 0 < beta) (hb' : beta ≤ 1 / 2 ^ 27) :
    (∀ {D : ℕ → ℤ → ℤ → ℂ}, Flt.wignerDl a leg pi0 L alpha beta gamma D → ∀ (l : ℕ) (m : ℤ), l ≤ L → m ≠ 0 → m.natAbs ≤ l → D l 0 m = 0 ∧ D l m 0 = 0) ∧
    ∀ {q q' : Mom L}, Flt.rotate_qlm a leg pi0 q alpha beta gamma q' → (∀ (l : ℕ) (n : ℤ), l ≤ L → n ≠ 0 → n.natAbs ≤ l → q.get l n = 0) →
      (∀ (l : ℕ) (m : ℤ), l ≤ L → m ≠ 0 → m.natAbs ≤ l → q'.get l m = 0) ∧
      ∃ q0, Newt.rotate_qlm q alpha beta gamma = some q0 ∧ (1 ≤ L → ‖q0.get 1 1‖ = Real.sin beta / Real.sqrt 2 * ‖q.get 1 0‖) := by
  have h1 : u < 1 := by linarith
  have hone : ∀ c, a.lib (Real.cos beta) c → c = 1 := fun c hc => cos_to_one hb.le hb' (hlib _ _ hc)
  have key : ∀ {N : ℕ} {D : ℕ → ℤ → ℤ → ℂ}, Flt.wignerDl a leg pi0 N alpha beta gamma D → ∀ (l : ℕ) (m : ℤ), l ≤ N → m ≠ 0 → m.natAbs ≤ l → D l 0 m = 0 ∧ D l m 0 = 0 := by
    rintro N D ⟨b, s, hr, H, hH, hD⟩ l m hl hm hml
    obtain ⟨rfl, rfl⟩ := reduce_small hu hp hb.le (hb'.trans (by norm_num)) hr
    obtain ⟨k1, k2⟩ := tilt_matrix ha hleg hone hH (by omega) hl hm hml
    obtain ⟨E, F, z, -, -, -, g1⟩ := hD l 0 m hl (by simp) hml
    obtain ⟨E', F', z', -, -, -, g2⟩ := hD l m 0 hl hml (by simp)
    rw [k1, Complex.ofReal_zero] at g1
    rw [k2, Complex.ofReal_zero] at g2
    exact ⟨cmul_zero h0 h1 ha g1, cmul_zero h0 h1 ha g2⟩
  refine ⟨key, fun {q q'} h hq => ⟨fun l m hl hm hml => ?_, ?_⟩⟩
  · obtain ⟨D, f, hD, hf, rfl⟩ := h
    rw [Mom.get_ofFn _ hl (by omega), if_pos ⟨by omega, hml⟩]
    have w := cdot_within h0 h1 ha (D0 := fun n => D l m n) (q0 := fun n => q.get l n) (wD := fun n => ‖D l m n‖) (wq := fun n => ‖q.get l n‖) (cD := 1) (cq := 1) le_rfl
      (fun n _ => Within.refl le_rfl le_rfl) (fun n _ => Within.refl le_rfl le_rfl) (hf l m (by omega) hl hml)
    have z : ∀ n ∈ Finset.Icc (-(l : ℤ)) l, ‖D l m n‖ * ‖q.get l n‖ = 0 := fun n hn => by
      rw [Finset.mem_Icc] at hn
      by_cases h : n = 0
      · rw [h, (key hD l m (by omega) hm hml).2, norm_zero, zero_mul]
      · rw [hq l n hl h (by omega), norm_zero, mul_zero]
    rw [Finset.sum_eq_zero z] at w
    have := w.size
    rw [mul_zero] at this
    exact norm_eq_zero.1 (le_antisymm this (norm_nonneg _))
  · obtain ⟨q0, k1, k2⟩ := rotate_entry q alpha beta gamma false
    simp only [Bool.false_eq_true, if_false] at k1 k2
    refine ⟨q0, k1, fun hL => ?_⟩
    rw [k2 1 1 hL (by simpa using hL), if_pos (by simp), Finset.sum_eq_single 0, norm_mul, small_entry]
    · refine Real.sin_nonneg_of_nonneg_of_le_pi hb.le (hb'.trans ?_)
      have := Real.pi_gt_three
      norm_num; linarith
    · intro n hn h
      rw [Finset.mem_Icc] at hn
      rw [hq 1 n hL h (by omega), mul_zero]
    · intro h
      exact absurd (Finset.mem_Icc.2 ⟨by simp, by simp⟩) h

/-! ## Runs exist -/

theorem dnm_exists (hT : Total a) (n m : ℤ) : ∃ d, Dnm a n m d := by
  obtain ⟨r, hr⟩ := hT.op (Real.sqrt ((n - m) * (n + m + 1)))
  exact ⟨_, r, hr, rfl⟩

theorem bnm_exists (hT : Total a) (n m : ℤ) : ∃ d, Bnm a n m d := by
  obtain ⟨x, hx⟩ := hT.op ((n - m - 1) * (n - m) / ((2 * n + 1) * (2 * n - 1)))
  obtain ⟨r, hr⟩ := hT.op (Real.sqrt x)
  exact ⟨_, x, r, hx, hr, rfl⟩

theorem anm_exists (hT : Total a) (n m : ℤ) : ∃ d, Anm a n m d := by
  obtain ⟨x, hx⟩ := hT.op ((n + 1 + m) * (n + 1 - m) / ((2 * n + 1) * (2 * n + 3)))
  obtain ⟨r, hr⟩ := hT.op (Real.sqrt x)
  exact ⟨r, x, hx, hr⟩

theorem start_exists (hT : Total a) {leg : Leg} (hleg : ∀ m k x, ∃ p, leg m k x p) (k m : ℕ) (cb : ℝ) : ∃ h, Start a leg k m cb h := by
  obtain ⟨g, hg⟩ := hT.lib (gammaln (k - m + 1))
  obtain ⟨g', hg'⟩ := hT.lib (gammaln (k + m + 1))
  obtain ⟨d, hd⟩ := hT.op (g - g')
  obtain ⟨x, hx⟩ := hT.lib (Real.exp d)
  obtain ⟨r, hr⟩ := hT.op (Real.sqrt x)
  obtain ⟨p, hp⟩ := hleg m k cb
  obtain ⟨h, hh⟩ := hT.op ((-1) ^ m * r * p)
  exact ⟨h, g, g', d, x, r, p, hg, hg', hd, hx, hr, hp, hh⟩

theorem row1_exists (hT : Total a) (n : ℕ) (m : ℤ) (cb sb hp hm h : ℝ) : ∃ v, Row1 a n m cb sb hp hm h v := by
  choose o ho using hT.op
  obtain ⟨b1, h1⟩ := bnm_exists hT (n + 1) (-m - 1)
  obtain ⟨b2, h2⟩ := bnm_exists hT (n + 1) (m - 1)
  obtain ⟨c, h3⟩ := anm_exists hT n m
  obtain ⟨b, h4⟩ := bnm_exists hT (n + 1) 0
  exact ⟨_, b1, b2, c, b, _, _, _, _, _, _, _, _, _, _, h1, h2, h3, h4, ho _, ho _, ho _, ho _, ho _, ho _, ho _, ho _, ho _, ho _, ho _⟩

theorem step5_exists (hT : Total a) (n : ℕ) (mp m : ℤ) (h1 h2 h3 : ℝ) : ∃ v, Step5 a n mp m h1 h2 h3 v := by
  choose o ho using hT.op
  choose d hd using fun m : ℤ => dnm_exists hT n m
  exact ⟨_, _, _, _, _, _, _, _, _, _, hd _, hd _, hd _, hd _, ho _, ho _, ho _, ho _, ho _, ho _⟩

theorem end5_exists (hT : Total a) (n : ℕ) (mp : ℤ) (h1 h2 : ℝ) : ∃ v, End5 a n mp h1 h2 v := by
  choose o ho using hT.op
  choose d hd using fun m : ℤ => dnm_exists hT n m
  exact ⟨_, _, _, _, _, _, _, hd _, hd _, hd _, ho _, ho _, ho _, ho _⟩

theorem step4_exists (hT : Total a) (n : ℕ) (mp m : ℤ) (h1 h2 h3 : ℝ) : ∃ v, Step4 a n mp m h1 h2 h3 v := by
  choose o ho using hT.op
  choose d hd using fun m : ℤ => dnm_exists hT n m
  exact ⟨_, _, _, _, _, _, _, _, _, _, hd _, hd _, hd _, hd _, ho _, ho _, ho _, ho _, ho _, ho _⟩

theorem end4_exists (hT : Total a) (n : ℕ) (mp : ℤ) (h1 h2 : ℝ) : ∃ v, End4 a n mp h1 h2 v := by
  choose o ho using hT.op
  choose d hd using fun m : ℤ => dnm_exists hT n m
  exact ⟨_, _, _, _, _, _, _, hd _, hd _, hd _, ho _, ho _, ho _, ho _⟩

/-- The rows `0, 1, 2, ...` (or `0, -1, -2, ...`) of a two-step recursion. -/
noncomputable def wedgeRows (r0 r1 : ℤ → ℝ) (next : ℤ → (ℤ → ℝ) → (ℤ → ℝ) → ℤ → ℝ) : ℕ → ℤ → ℝ
  | 0 => r0
  | 1 => r1
  | k + 2 => next (k + 1) (wedgeRows r0 r1 next k) (wedgeRows r0 r1 next (k + 1))

theorem wedge_exists (hT : Total a) {n : ℕ} (hn : 1 ≤ n) (cb sb : ℝ) (row up : ℕ → ℝ) : ∃ W, Wedge a n cb sb row up W := by
  choose R1 hR1 using fun (m : ℤ) (hp hm h : ℝ) => row1_exists hT n m cb sb hp hm h
  choose S5 hS5 using fun (mp m : ℤ) (h1 h2 h3 : ℝ) => step5_exists hT n mp m h1 h2 h3
  choose E5 hE5 using fun (mp : ℤ) (h1 h2 : ℝ) => end5_exists hT n mp h1 h2
  choose S4 hS4 using fun (mp m : ℤ) (h1 h2 h3 : ℝ) => step4_exists hT n mp m h1 h2 h3
  choose E4 hE4 using fun (mp : ℤ) (h1 h2 : ℝ) => end4_exists hT n mp h1 h2
  set r0 : ℤ → ℝ := fun m => row m.toNat with hr0
  set r1 : ℤ → ℝ := fun m => R1 m (up (m.toNat + 1)) (up (m.toNat - 1)) (up m.toNat) with hr1
  set n4 : ℤ → (ℤ → ℝ) → (ℤ → ℝ) → ℤ → ℝ := fun mp x y m => if m = n then E4 mp (x n) (y (n - 1)) else S4 mp m (x m) (y (m - 1)) (y (m + 1)) with hn4
  set n5 : ℤ → (ℤ → ℝ) → (ℤ → ℝ) → ℤ → ℝ := fun mp x y m => if m = n then E5 mp (x n) (y (n - 1)) else S5 mp m (x m) (y (m - 1)) (y (m + 1)) with hn5
  set P := wedgeRows r0 r1 n4 with hP
  set N := wedgeRows r0 (n5 0 r1 r0) n5 with hN
  set W : CMat := fun i j => if (i.natAbs : ℤ) ≤ j ∧ j ≤ n then (if 0 ≤ i then P i.natAbs j else N i.natAbs j) else 0 with hWd
  have wp : ∀ (k : ℕ) (j : ℤ), (k : ℤ) ≤ j → j ≤ n → W k j = P k j := fun k j h1 h2 => by
    simp only [hWd]; rw [if_pos (by omega), if_pos (by omega), Int.natAbs_natCast]
  have wn : ∀ (k : ℕ) (j : ℤ), (k : ℤ) ≤ j → j ≤ n → W (-k) j = N k j := fun k j h1 h2 => by
    rcases Nat.eq_zero_or_pos k with rfl | hk
    · rw [Nat.cast_zero, neg_zero]
      exact wp 0 j h1 h2
    · simp only [hWd]; rw [if_pos (by omega), if_neg (by omega), Int.natAbs_neg, Int.natAbs_natCast]
  refine ⟨W, ⟨fun i j h => if_neg h, fun m hm => ?_, fun m h1 hm => ?_, fun mp m h1 h2 h3 h4 => ?_, fun mp h1 h2 => ?_, fun mp m h1 h2 h3 h4 => ?_, fun mp h1 h2 => ?_⟩⟩
  · have := wp 0 m (by omega) (by omega)
    rw [Nat.cast_zero] at this
    rw [this]; rfl
  · have := wp 1 m (by omega) (by omega)
    rw [Nat.cast_one] at this
    rw [this]
    exact hR1 m _ _ _
  · obtain ⟨k, rfl⟩ := Int.eq_ofNat_of_zero_le h1
    have e1 := wn (k + 1) m (by push_cast; omega) (by omega)
    rw [show (-((k + 1 : ℕ) : ℤ)) = -(k : ℤ) - 1 by push_cast; ring] at e1
    rw [e1, wn k (m - 1) (by omega) (by omega), wn k (m + 1) (by omega) (by omega)]
    rcases k with _ | k
    · have e2 := wp 1 m (by omega) (by omega)
      rw [show -((0 : ℕ) : ℤ) + 1 = (1 : ℕ) by simp, e2, show N (0 + 1) m = n5 0 r1 r0 m from rfl]
      simp only [hn5]
      rw [if_neg (by omega)]
      exact hS5 0 m _ _ _
    · rw [show -((k + 1 : ℕ) : ℤ) + 1 = -(k : ℤ) by push_cast; ring, wn k m (by push_cast at h3; omega) (by omega), show N (k + 1 + 1) m = n5 (k + 1) (N k) (N (k + 1)) m from rfl]
      simp only [hn5]
      rw [if_neg (by omega)]
      exact_mod_cast hS5 (k + 1) m _ _ _
  · obtain ⟨k, rfl⟩ := Int.eq_ofNat_of_zero_le h1
    have e1 := wn (k + 1) n (by push_cast; omega) (by omega)
    rw [show (-((k + 1 : ℕ) : ℤ)) = -(k : ℤ) - 1 by push_cast; ring] at e1
    rw [e1, wn k (n - 1) (by omega) (by omega)]
    rcases k with _ | k
    · have e2 := wp 1 n (by omega) (by omega)
      rw [show -((0 : ℕ) : ℤ) + 1 = (1 : ℕ) by simp, e2, show N (0 + 1) n = n5 0 r1 r0 n from rfl]
      simp only [hn5]
      rw [if_pos trivial]
      exact hE5 0 _ _
    · rw [show -((k + 1 : ℕ) : ℤ) + 1 = -(k : ℤ) by push_cast; ring, wn k n (by push_cast at h2; omega) (by omega), show N (k + 1 + 1) n = n5 (k + 1) (N k) (N (k + 1)) n from rfl]
      simp only [hn5]
      rw [if_pos trivial]
      exact_mod_cast hE5 (k + 1) _ _
  · obtain ⟨k, rfl⟩ : ∃ k : ℕ, mp = k + 1 := ⟨(mp - 1).toNat, by omega⟩
    have e1 := wp (k + 2) m (by push_cast; omega) (by omega)
    have e2 := wp (k + 1) (m - 1) (by push_cast; omega) (by omega)
    have e3 := wp (k + 1) (m + 1) (by push_cast; omega) (by omega)
    push_cast at e1 e2 e3
    rw [show (k : ℤ) + 1 + 1 = k + 2 by ring, e1, e2, e3, show (k : ℤ) + 1 - 1 = k by ring, wp k m (by omega) (by omega), show P (k + 2) m = n4 (k + 1) (P k) (P (k + 1)) m from rfl]
    simp only [hn4]
    rw [if_neg (by omega)]
    exact hS4 (k + 1) m _ _ _
  · obtain ⟨k, rfl⟩ : ∃ k : ℕ, mp = k + 1 := ⟨(mp - 1).toNat, by omega⟩
    have e1 := wp (k + 2) n (by push_cast; omega) (by omega)
    have e2 := wp (k + 1) (n - 1) (by push_cast; omega) (by omega)
    push_cast at e1 e2
    rw [show (k : ℤ) + 1 + 1 = k + 2 by ring, e1, e2, show (k : ℤ) + 1 - 1 = k by ring, wp k n (by omega) (by omega), show P (k + 2) n = n4 (k + 1) (P k) (P (k + 1)) n from rfl]
    simp only [hn4]
    rw [if_pos trivial]
    exact hE4 (k + 1) _ _

theorem copyTri_exists (hT : Total a) (n : ℕ) (M : CMat) : ∃ M', CopyTri a n M M' := by
  choose o ho using hT.op
  exact ⟨fun i j => o (o (M i j + M j i) - if i = j then M i i else 0), fun i j _ _ => ⟨_, ho _, ho _⟩⟩

theorem expI_exists (hT : Total a) (m : ℤ) (alpha : ℝ) : ∃ E, ExpI a m alpha E := by
  obtain ⟨y, hy⟩ := hT.op (m * alpha)
  obtain ⟨s, hs⟩ := hT.lib (Real.cos y)
  obtain ⟨t, ht⟩ := hT.lib (-Real.sin y)
  exact ⟨⟨s, t⟩, y, hy, hs, ht⟩

theorem rec_exists (hT : Total a) {leg : Leg} (hleg : ∀ m k x, ∃ p, leg m k x p) {p : ℕ} (hp : p ≠ 0) (beta : ℝ) : ∃ H, Flt.rotate_H_recurs a leg p beta H := by
  obtain ⟨cb, hcb⟩ := hT.lib (Real.cos beta)
  obtain ⟨sb, hsb⟩ := hT.lib (Real.sin beta)
  choose row hrow using fun k m : ℕ => start_exists hT hleg k m cb
  have key : ∀ n : ℕ, ∃ H : CMat, 1 ≤ n → ∃ W, Wedge a n cb sb (row n) (row (n + 1)) W ∧ Copies a n W H := fun n => by
    by_cases hn : 1 ≤ n
    · obtain ⟨W, hW⟩ := wedge_exists hT hn cb sb (row n) (row (n + 1))
      obtain ⟨M, hM⟩ := copyTri_exists hT n W
      obtain ⟨M', hM'⟩ := copyTri_exists hT n (rot90inv M)
      exact ⟨rot90 M', fun _ => ⟨W, hW, M, M', hM, hM', rfl⟩⟩
    · exact ⟨0, fun h => absurd h hn⟩
  choose H hH using key
  refine ⟨fun n => if n = 0 then fun _ _ => row 0 0 else H n, hp, cb, sb, row, hcb, hsb, fun k m _ _ => hrow k m, by simp, fun n hn _ => ?_⟩
  simp only
  rw [if_neg (by omega)]
  exact hH n hn

/-- **C133 (runs exist).**  An arithmetic and a library that answer every request rotate all moments by all angles. -/
theorem C133_returns (hT : Total a) {leg : Leg} (hleg : ∀ m k x, ∃ p, leg m k x p) {L : ℕ} (pi0 alpha beta gamma : ℝ) :
    (1 ≤ L → ∃ D, Flt.wignerDl a leg pi0 L alpha beta gamma D) ∧ ∀ q : Mom L, ∃ q', Flt.rotate_qlm a leg pi0 q alpha beta gamma q' := by
  have key : ∀ N : ℕ, N ≠ 0 → ∃ D, Flt.wignerDl a leg pi0 N alpha beta gamma D := fun N hN => by
    obtain ⟨b, s, hr⟩ := reduce_exists hT pi0 beta
    obtain ⟨H, hH⟩ := rec_exists hT hleg hN b
    choose E hE using fun m : ℤ => expI_exists hT m alpha
    choose F hF using fun m : ℤ => expI_exists hT m gamma
    choose z hz using fun i j : ℤ => cmul_exists hT (E i) (F j)
    choose D hD using fun (l : ℕ) (i j : ℤ) => cmul_exists hT (H l i j : ℂ) ((epsm i * epsm (-j) * (s ^ i.natAbs * s ^ j.natAbs) : ℝ) * z i j)
    exact ⟨D, b, s, hr, H, hH, fun l i j _ _ _ => ⟨E i, F j, z i j, hE i, hF j, hz i j, hD l i j⟩⟩
  refine ⟨fun hL => key L (by omega), fun q => ?_⟩
  obtain ⟨D, hD⟩ := key (L + 1) (by omega)
  choose f hf using fun (l : ℕ) (m : ℤ) => cdot_exists hT l (fun n => D l m n) (fun n => q.get l n)
  exact ⟨_, D, f, hD, fun l m _ _ _ => hf l m, rfl⟩

/-! ## Double precision -/

theorem ieee53_unit : UnitSafe ieee53 := fun x y hx h => by
  have hn : Nearest 53 x y := by
    rw [show y = binRound 53 x from h]
    exact nearest_binRound (by norm_num) x
  exact abs_le.2 ⟨nearest_ge hn (rep_neg (rep_one (by norm_num))) (abs_le.1 hx).1, nearest_le hn (rep_one (by norm_num)) (abs_le.1 hx).2⟩

/-- Associated Legendre functions without error. -/
def exactLeg : Leg := fun m k x p => p = lpmv m k x

theorem exactLeg_accurate (n : ℕ) : LegAccurate exactLeg n 0 := ⟨le_rfl, fun m k x p _ _ _ h => by rw [show p = lpmv m k x from h]; simp⟩

theorem exactLeg_one (m k : ℕ) (p : ℝ) (hm : 1 ≤ m) (h : exactLeg m k 1 p) : p = 0 := by
  rw [show p = lpmv m k 1 from h, lpmv]
  simp [show m ≠ 0 by omega]

theorem log_fact_double {n : ℕ} (hn : n ≤ 10) : Real.log (2 * (n + 1)).factorial ≤ 49 := by
  have h1 : ((2 * (n + 1)).factorial : ℝ) ≤ 2 ^ 70 := by
    have h2 : (2 * (n + 1)).factorial ≤ (22 : ℕ).factorial := Nat.factorial_le (by omega)
    have h3 : (22 : ℕ).factorial ≤ 2 ^ 70 := by decide +kernel
    exact_mod_cast h2.trans h3
  have h4 : Real.log (2 * (n + 1)).factorial ≤ Real.log (2 ^ 70) := Real.log_le_log (by exact_mod_cast Nat.factorial_pos _) h1
  rw [Real.log_pow] at h4
  have := Real.log_two_lt_d9
  push_cast at h4
  linarith

theorem start_double {n : ℕ} (hn : n ≤ 10) {eps d : ℝ} (he : 0 ≤ eps) : startErr ((2 : ℝ)⁻¹ ^ 53) eps d n ≤ (1 + 1.3e-14) * (1 + eps) - 1 + (n + 1) * d := by
  have k2 : relErr ((2 : ℝ)⁻¹ ^ 53) 2 ≤ 2.3e-16 := (relErr_le (by positivity) (by norm_num)).trans (by norm_num)
  have k3 : relErr ((2 : ℝ)⁻¹ ^ 53) 3 ≤ 3.4e-16 := (relErr_le (by positivity) (by norm_num)).trans (by norm_num)
  have j2 := relErr_nonneg (u := (2 : ℝ)⁻¹ ^ 53) (by positivity) (by norm_num) 2
  have j3 := relErr_nonneg (u := (2 : ℝ)⁻¹ ^ 53) (by positivity) (by norm_num) 3
  have hl := log_fact_double hn
  have hl0 : 0 ≤ Real.log (2 * (n + 1)).factorial := Real.log_natCast_nonneg _
  have hx : relErr ((2 : ℝ)⁻¹ ^ 53) 2 * Real.log (2 * (n + 1)).factorial ≤ 1.13e-14 := by
    calc _ ≤ 2.3e-16 * (49 : ℝ) := by gcongr
      _ ≤ _ := by norm_num
  have hE : Real.exp (relErr ((2 : ℝ)⁻¹ ^ 53) 2 * Real.log (2 * (n + 1)).factorial) ≤ 1 + 1.2e-14 := by
    refine (Real.exp_le_exp.2 hx).trans ?_
    have h1 := Real.add_one_le_exp (-(1.13e-14 : ℝ))
    rw [Real.exp_neg] at h1
    have h2 : (0 : ℝ) < -1.13e-14 + 1 := by norm_num
    have h3 := (le_inv_comm₀ h2 (Real.exp_pos _)).1 h1
    refine h3.trans ?_
    rw [inv_le_iff_one_le_mul₀ h2]
    norm_num
  rw [startErr]
  have : Real.exp (relErr ((2 : ℝ)⁻¹ ^ 53) 2 * Real.log (2 * (n + 1)).factorial) * (1 + relErr ((2 : ℝ)⁻¹ ^ 53) 3) * (1 + eps) ≤ (1 + 1.3e-14) * (1 + eps) := by
    refine mul_le_mul_of_nonneg_right ?_ (by linarith)
    calc _ ≤ (1 + 1.2e-14) * (1 + 3.4e-16 : ℝ) := by gcongr
      _ ≤ _ := by norm_num
  linarith

/-- **C133 (double precision).**  With every operation accurate to `2^-53`: up to degree 4 and for any angle the entries of the recursion are accurate to `3e-5` (Legendre functions
accurate to `1e-12`); up to degree 10 and for angles with a sine of at least one half they are accurate to `7e-9` (Legendre functions accurate to `1e-14`). -/
theorem C133_double {n : ℕ} {eps : ℝ} (he : 0 ≤ eps) :
    (n ≤ 4 → eps ≤ 1e-12 → recErr ((2 : ℝ)⁻¹ ^ 53) eps (Real.pi * Real.sqrt ((2 : ℝ)⁻¹ ^ 53 / 2)) n ≤ 3e-5) ∧
    ∀ {beta : ℝ}, n ≤ 10 → eps ≤ 1e-14 → 1 / 2 ≤ Real.sin beta → recErr ((2 : ℝ)⁻¹ ^ 53) eps (Real.pi * (2 : ℝ)⁻¹ ^ 53 * |Real.cos beta| / Real.sin beta) n ≤ 7e-9 := by
  have hpi := Real.pi_lt_d2
  have hpi0 := Real.pi_pos
  have hu : (2 : ℝ)⁻¹ ^ 53 ≤ 1.12e-16 := by norm_num
  have hu0 : (0 : ℝ) ≤ (2 : ℝ)⁻¹ ^ 53 := by positivity
  refine ⟨fun hn h => ?_, fun {beta} hn h hs => ?_⟩
  · have hr : Real.sqrt ((2 : ℝ)⁻¹ ^ 53 / 2) ≤ 7.4506e-9 := by
      rw [Real.sqrt_le_left (by norm_num)]
      norm_num
    have hs := start_double (n := n) (by omega) (d := Real.pi * Real.sqrt ((2 : ℝ)⁻¹ ^ 53 / 2)) he
    have hd : Real.pi * Real.sqrt ((2 : ℝ)⁻¹ ^ 53 / 2) ≤ 3.15 * 7.4506e-9 := mul_le_mul hpi.le hr (Real.sqrt_nonneg _) (by norm_num)
    have hd0 : 0 ≤ Real.pi * Real.sqrt ((2 : ℝ)⁻¹ ^ 53 / 2) := by positivity
    have hn' : (n : ℝ) + 1 ≤ 5 := by
      have : (n : ℝ) ≤ 4 := by exact_mod_cast hn
      linarith
    have h3 : (3 : ℝ) ^ n ≤ 81 := by
      calc (3 : ℝ) ^ n ≤ 3 ^ 4 := pow_le_pow_right₀ (by norm_num) hn
        _ = 81 := by norm_num
    have hs2 : startErr ((2 : ℝ)⁻¹ ^ 53) eps (Real.pi * Real.sqrt ((2 : ℝ)⁻¹ ^ 53 / 2)) n ≤ 1.1736e-7 := by
      have : (n + 1) * (Real.pi * Real.sqrt ((2 : ℝ)⁻¹ ^ 53 / 2)) ≤ 5 * (3.15 * 7.4506e-9) := mul_le_mul hn' hd hd0 (by norm_num)
      generalize (n + 1) * (Real.pi * Real.sqrt ((2 : ℝ)⁻¹ ^ 53 / 2)) = t at *
      norm_num at *
      linarith
    have hs0 := startErr_nonneg (u := (2 : ℝ)⁻¹ ^ 53) hu0 (by norm_num) he hd0 n
    rw [recErr]
    calc _ ≤ 81 * (3 * 1.1736e-7 + 35 * 1.12e-16 : ℝ) := mul_le_mul h3 (add_le_add (mul_le_mul_of_nonneg_left hs2 (by norm_num)) (mul_le_mul_of_nonneg_left hu (by norm_num)))
          (by positivity) (by norm_num)
      _ ≤ _ := by norm_num
  · have hs1 : 0 < Real.sin beta := by linarith
    have hc := Real.abs_cos_le_one beta
    set d := Real.pi * (2 : ℝ)⁻¹ ^ 53 * |Real.cos beta| / Real.sin beta with hdd
    have hd0 : 0 ≤ d := by positivity
    have hd : d ≤ 7.06e-16 := by
      rw [hdd, div_le_iff₀ hs1]
      calc Real.pi * (2 : ℝ)⁻¹ ^ 53 * |Real.cos beta| ≤ 3.15 * 1.12e-16 * 1 := by gcongr
        _ ≤ 7.06e-16 * (1 / 2) := by norm_num
        _ ≤ _ := mul_le_mul_of_nonneg_left hs (by norm_num)
    have hst := start_double hn (d := d) he
    have hn' : (n : ℝ) + 1 ≤ 11 := by
      have : (n : ℝ) ≤ 10 := by exact_mod_cast hn
      linarith
    have h3 : (3 : ℝ) ^ n ≤ 59049 := by
      calc (3 : ℝ) ^ n ≤ 3 ^ 10 := pow_le_pow_right₀ (by norm_num) hn
        _ = 59049 := by norm_num
    have hs2 : startErr ((2 : ℝ)⁻¹ ^ 53) eps d n ≤ 3.1e-14 := by
      have : (n + 1) * d ≤ 11 * 7.06e-16 := mul_le_mul hn' hd hd0 (by norm_num)
      generalize (n + 1) * d = t at *
      norm_num at *
      linarith
    have hs0 := startErr_nonneg (u := (2 : ℝ)⁻¹ ^ 53) hu0 (by norm_num) he hd0 n
    rw [recErr]
    calc _ ≤ 59049 * (3 * 3.1e-14 + 35 * 1.12e-16 : ℝ) := mul_le_mul h3 (add_le_add (mul_le_mul_of_nonneg_left hs2 (by norm_num)) (mul_le_mul_of_nonneg_left hu (by norm_num)))
          (by positivity) (by norm_num)
      _ ≤ _ := by norm_num

/-- A run in double precision: the matrices up to degree 4 for three angles, the second one outside of `[0, pi]`. -/
example : ∃ (D : ℕ → ℤ → ℤ → ℂ) (Ds : List (ℤ → ℤ → ℂ)), Flt.wignerDl ieee53 exactLeg npPi 4 1 (-5) 3 D ∧ Newt.wignerDl 4 1 (-5) 3 = some Ds ∧
    ‖D 4 3 (-1) - Ds.getD 4 0 3 (-1)‖ ≤ 4e-5 := by
  obtain ⟨D, hD⟩ := (C133_returns (L := 4) ieee53_total (leg := exactLeg) (fun m k x => ⟨_, rfl⟩) npPi 1 (-5) 3).1 (by norm_num)
  have hu : (0 : ℝ) ≤ (2 : ℝ)⁻¹ ^ 53 := by positivity
  obtain ⟨Ds, h1, -, h2⟩ := C133_wigner hu (by norm_num) ieee53_accurate ieee53_unit (exactLeg_accurate (4 + 1)) (C133_npPi ieee53_nearest) (alpha := 1) (gamma := 3) (C133_turn hu (-5)).1 hD
  refine ⟨D, Ds, hD, h1, (h2 4 3 (-1) le_rfl (by decide) (by decide)).trans ?_⟩
  have hd := (C133_double (n := 4) (eps := 0) le_rfl).1 le_rfl (by norm_num)
  have h0 := recErr_nonneg (u := (2 : ℝ)⁻¹ ^ 53) hu (by norm_num) (le_refl (0 : ℝ)) (d := Real.pi * Real.sqrt ((2 : ℝ)⁻¹ ^ 53 / 2)) (by have := Real.pi_pos; positivity) 4
  have k : relErr ((2 : ℝ)⁻¹ ^ 53) 10 ≤ 1.2e-15 := (relErr_le (by positivity) (by norm_num)).trans (by norm_num)
  rw [wigGrow, recGrow, turnErr]
  generalize recErr ((2 : ℝ)⁻¹ ^ 53) 0 (Real.pi * Real.sqrt ((2 : ℝ)⁻¹ ^ 53 / 2)) 4 = r at *
  generalize relErr ((2 : ℝ)⁻¹ ^ 53) 10 = t at *
  have q : (1 + (2 : ℝ)⁻¹ ^ 53 * ((4 : ℕ) * |1|)) * (1 + (2 : ℝ)⁻¹ ^ 53 * ((4 : ℕ) * |3|)) * (1 + t) ≤ 1 + 1e-6 := by
    calc _ ≤ (1 + (2 : ℝ)⁻¹ ^ 53 * ((4 : ℕ) * |1|)) * (1 + (2 : ℝ)⁻¹ ^ 53 * ((4 : ℕ) * |3|)) * (1 + 1.2e-15) := by gcongr
      _ ≤ _ := by norm_num
  have q2 : (1 + r) * ((1 + (2 : ℝ)⁻¹ ^ 53 * ((4 : ℕ) * |1|)) * (1 + (2 : ℝ)⁻¹ ^ 53 * ((4 : ℕ) * |3|)) * (1 + t)) ≤ (1 + 3e-5) * (1 + 1e-6) :=
    (mul_le_mul_of_nonneg_left q (by linarith)).trans (mul_le_mul_of_nonneg_right (by linarith) (by norm_num))
  rw [abs_of_neg (by norm_num : (-5 : ℝ) < 0)]
  norm_num at q2 ⊢
  linarith

/-- A rotation by a billionth of a radian in double precision: the dipole is not tilted at all, although it should be. -/
example : ∃ (q q' q0 : Mom 1), Flt.rotate_qlm ieee53 exactLeg npPi q 0 (1 / 10 ^ 9) 0 q' ∧ Newt.rotate_qlm q 0 (1 / 10 ^ 9) 0 = some q0 ∧ q.get 1 0 = 1 ∧ q'.get 1 1 = 0 ∧ q0.get 1 1 ≠ 0 := by
  set q : Mom 1 := Mom.ofFn 1 fun l m => if l = 1 ∧ m = 0 then 1 else 0 with hq
  have hg : q.get 1 0 = 1 := by rw [hq, Mom.get_ofFn _ le_rfl (by simp), if_pos ⟨rfl, rfl⟩]
  obtain ⟨q', h⟩ := (C133_returns (L := 1) ieee53_total (leg := exactLeg) (fun m k x => ⟨_, rfl⟩) npPi 0 (1 / 10 ^ 9) 0).2 q
  obtain ⟨k1, q0, k2, k3⟩ := (C133_small_tilt (L := 1) (u := (2 : ℝ)⁻¹ ^ 53) (by positivity) (by norm_num) ieee53_accurate
    (fun x y h => by rw [show y = binRound 53 x from h]; exact nearest_binRound (by norm_num) x) exactLeg_one (C133_npPi ieee53_nearest) (alpha := 0) (beta := 1 / 10 ^ 9) (gamma := 0) (by norm_num) (by norm_num)).2 h
    (fun l n hl hn hnl => by rw [hq, Mom.get_ofFn _ hl (by omega), if_neg (by tauto)])
  refine ⟨q, q', q0, h, k2, hg, k1 1 1 le_rfl (by decide) (by decide), fun hc => ?_⟩
  have k4 := k3 le_rfl
  rw [hc, hg, norm_zero, norm_one, mul_one] at k4
  have : 0 < Real.sin (1 / 10 ^ 9) := Real.sin_pos_of_pos_of_lt_pi (by norm_num) (by have := Real.pi_gt_three; norm_num; linarith)
  have := div_pos this (Real.sqrt_pos.2 (by norm_num : (0 : ℝ) < 2))
  linarith

end Newt
