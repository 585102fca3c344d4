import Verif.Proofs.AchPlane
import Verif.Spec.SolidsAch
import Verif.Proofs.QlmCyl

/-! # Truncated cones -/

namespace Newt.Ach

open MeasureTheory Finset Spec

/-- Integrating a solid section by section. -/
theorem sections_int (S : Set (ℝ × (ℝ × ℝ))) (hS : IsCompact S) (a b : ℝ) (hab : a ≤ b) (D : ℝ → Set (ℝ × ℝ))
    (hD : ∀ z, MeasurableSet (D z)) (h : ∀ z q, (z, q) ∈ S ↔ z ∈ Set.Icc a b ∧ q ∈ D z) (e m k : ℕ) :
    ∫ p in S, ((p.1 : ℂ)) ^ e * pmf m k p.2 = ∫ z in a..b, (z : ℂ) ^ e * pm (D z) m k := by
  set f : ℝ × (ℝ × ℝ) → ℂ := fun p => ((p.1 : ℂ)) ^ e * pmf m k p.2 with hf
  have hint : IntegrableOn f S := ((continuous_Rsol_term e m k)).continuousOn.integrableOn_compact hS
  rw [← integral_indicator hS.measurableSet]
  have hint2 : Integrable (S.indicator f) := (integrable_indicator_iff hS.measurableSet).2 hint
  rw [Measure.volume_eq_prod] at hint2 ⊢
  rw [integral_prod _ hint2]
  have key : ∀ z : ℝ, ∫ q : ℝ × ℝ, S.indicator f (z, q)
      = (Set.Icc a b).indicator (fun z : ℝ => (z : ℂ) ^ e * pm (D z) m k) z := by
    intro z
    by_cases hz : z ∈ Set.Icc a b
    · rw [Set.indicator_of_mem hz]
      have : ∀ q : ℝ × ℝ, S.indicator f (z, q) = (D z).indicator (fun q => (z : ℂ) ^ e * pmf m k q) q := by
        intro q
        by_cases hq : q ∈ D z
        · rw [Set.indicator_of_mem hq, Set.indicator_of_mem ((h z q).2 ⟨hz, hq⟩)]
        · rw [Set.indicator_of_notMem hq, Set.indicator_of_notMem (fun c => hq ((h z q).1 c).2)]
      simp_rw [this]
      rw [integral_indicator (hD z), integral_const_mul, pm]
    · rw [Set.indicator_of_notMem hz]
      have : ∀ q : ℝ × ℝ, S.indicator f (z, q) = 0 := fun q =>
        Set.indicator_of_notMem (fun c => hz ((h z q).1 c).1) _
      simp [this]
  simp_rw [key]
  rw [integral_indicator measurableSet_Icc, integral_Icc_eq_integral_Ioc, ← intervalIntegral.integral_of_le hab]

theorem disc_measurable (R : ℝ) : MeasurableSet (disc R) :=
  (isClosed_le (f := fun p : ℝ × ℝ => p.1 ^ 2 + p.2 ^ 2) (by fun_prop) continuous_const).measurableSet

theorem pm_disc' (R : ℝ) (m k : ℕ) :
    pm (disc R) m k = if m = 0 then ((Real.pi * R ^ (2 * k + 2) / (k + 1) : ℝ) : ℂ) else 0 := by
  have h1 : disc R = disc |R| := by simp [disc]
  rw [h1, pm_disc |R| (abs_nonneg R)]
  split_ifs with h
  · congr 1
    rw [show 2 * k + 2 = 2 * (k + 1) by ring, pow_mul, sq_abs, ← pow_mul]
    have : (k : ℝ) + 1 ≠ 0 := by positivity
    field_simp
  · rfl

/-- The frustum in coordinates `(z, (x, y))`. -/
def frustumC (a b ra rb : ℝ) : Set (ℝ × (ℝ × ℝ)) :=
  {p | a ≤ p.1 ∧ p.1 ≤ b ∧ p.2.1 ^ 2 + p.2.2 ^ 2 ≤ (ra + (rb - ra) * ((p.1 - a) / (b - a))) ^ 2}

theorem frustumC_compact (a b ra rb : ℝ) (hab : a < b) : IsCompact (frustumC a b ra rb) := by
  have hd : 0 < b - a := by linarith
  refine IsCompact.of_isClosed_subset ((isCompact_Icc (a := a) (b := b)).prod
    ((isCompact_Icc (a := -(|ra| + |rb|)) (b := |ra| + |rb|)).prod
      (isCompact_Icc (a := -(|ra| + |rb|)) (b := |ra| + |rb|)))) ?_ ?_
  · refine IsClosed.inter (isClosed_le continuous_const continuous_fst) ?_
    refine IsClosed.inter (isClosed_le continuous_fst continuous_const) ?_
    exact isClosed_le (f := fun p : ℝ × (ℝ × ℝ) => p.2.1 ^ 2 + p.2.2 ^ 2)
      (g := fun p : ℝ × (ℝ × ℝ) => (ra + (rb - ra) * ((p.1 - a) / (b - a))) ^ 2) (by fun_prop) (by fun_prop)
  · rintro ⟨z, x, y⟩ ⟨h1, h2, h3⟩
    simp only at h1 h2 h3
    have e1 : 0 ≤ (z - a) / (b - a) := div_nonneg (by linarith) hd.le
    have e2 : (z - a) / (b - a) ≤ 1 := (div_le_one hd).2 (by linarith)
    have hR : |ra + (rb - ra) * ((z - a) / (b - a))| ≤ |ra| + |rb| := by
      have : ra + (rb - ra) * ((z - a) / (b - a)) = ra * (1 - (z - a) / (b - a)) + rb * ((z - a) / (b - a)) := by ring
      rw [this]
      refine (abs_add_le _ _).trans ?_
      rw [abs_mul, abs_mul, abs_of_nonneg e1, abs_of_nonneg (sub_nonneg.2 e2)]
      have := abs_nonneg ra
      have := abs_nonneg rb
      nlinarith
    have hx : |x| ≤ |ra| + |rb| := (sq_le_sq.1 (show x ^ 2 ≤ (ra + (rb - ra) * ((z - a) / (b - a))) ^ 2 by nlinarith [sq_nonneg y])).trans hR
    have hy : |y| ≤ |ra| + |rb| := (sq_le_sq.1 (show y ^ 2 ≤ (ra + (rb - ra) * ((z - a) / (b - a))) ^ 2 by nlinarith [sq_nonneg x])).trans hR
    exact ⟨⟨h1, h2⟩, abs_le.1 hx, abs_le.1 hy⟩

/-- `∫_a^{a+h} z^e (ra + (rb-ra)(z-a)/h)^n dz`. -/
noncomputable def coneM (a h ra rb : ℝ) (e n : ℕ) : ℝ :=
  ∑ i ∈ range (e + 1), (e.choose i : ℝ) * a ^ (e - i) *
    ∑ j ∈ range (n + 1), (n.choose j : ℝ) * (rb - ra) ^ j * ra ^ (n - j) * (h ^ (i + 1) / (i + j + 1))

theorem coneM_eq (a h ra rb : ℝ) (hh : 0 < h) (e n : ℕ) :
    ∫ z in a..(a + h), z ^ e * (ra + (rb - ra) * ((z - a) / h)) ^ n = coneM a h ra rb e n := by
  have hs := intervalIntegral.integral_comp_add_right (a := 0) (b := h)
    (fun z : ℝ => z ^ e * (ra + (rb - ra) * ((z - a) / h)) ^ n) a
  rw [zero_add, add_comm h a] at hs
  rw [← hs, coneM]
  have : ∀ x : ℝ, (x + a) ^ e * (ra + (rb - ra) * ((x + a - a) / h)) ^ n
      = ∑ i ∈ range (e + 1), ((e.choose i : ℝ) * a ^ (e - i)) * (x ^ i * (ra + (rb - ra) * (x / h)) ^ n) := by
    intro x
    rw [add_sub_cancel_right, add_pow, sum_mul]
    exact sum_congr rfl fun i _ => by ring
  simp_rw [this]
  rw [intervalIntegral.integral_finset_sum]
  swap
  · intro p _; exact Continuous.intervalIntegrable (by fun_prop) _ _
  refine sum_congr rfl fun i _ => ?_
  rw [intervalIntegral.integral_const_mul, lin_int ra rb h hh.ne']

theorem frustum_int (a h ra rb : ℝ) (hh : 0 < h) (l m : ℕ) (hm : m ≤ l) :
    ∫ v in frustum a (a + h) ra rb, solidS l m v
      = if m = 0 then ∑ k ∈ range (l / 2 + 1), ((Nlm l m * rc l 0 k * (Real.pi / (k + 1) * coneM a h ra rb (l - 2 * k) (2 * k + 2)) : ℝ) : ℂ)
        else 0 := by
  have hF : frustum a (a + h) ra rb = {v : V3 | (v 2, (v 0, v 1)) ∈ frustumC a (a + h) ra rb} := rfl
  have hc := frustumC_compact a (a + h) ra rb (by linarith)
  rw [hF, solid_int_expand l m hm _ hc]
  have hsec : ∀ e k : ℕ, ∫ p in frustumC a (a + h) ra rb, ((p.1 : ℂ)) ^ e * pmf m k p.2
      = if m = 0 then ((Real.pi / (k + 1) * coneM a h ra rb e (2 * k + 2) : ℝ) : ℂ) else 0 := by
    intro e k
    rw [sections_int _ hc a (a + h) (by linarith) (fun z => disc (ra + (rb - ra) * ((z - a) / h)))
      (fun z => disc_measurable _)]
    · simp_rw [pm_disc']
      split_ifs with h0
      · rw [← coneM_eq a h ra rb hh, ← intervalIntegral.integral_const_mul, ← intervalIntegral.integral_ofReal]
        refine intervalIntegral.integral_congr fun z _ => ?_
        push_cast; ring
      · simp
    · intro z q
      simp only [frustumC, disc, Set.mem_setOf_eq, Set.mem_Icc, add_sub_cancel_left, and_assoc]
  simp_rw [hsec]
  split_ifs with h0
  · subst h0
    refine sum_congr rfl fun k _ => ?_
    push_cast
    simp only [Nat.sub_zero]
  · simp

theorem con_00 (rho h r1 r2 : ℝ) (hh : 0 < h) :
    QlmACH.conCell rho h r1 r2 0 0 = densityInner rho (frustum (-(h / 2)) ((-(h / 2)) + h) r2 r1) 0 ((0 : ℕ) : ℤ) := by
  have hN : Nlm 0 ((0 : ℕ) : ℤ) = (1 / 2) / Real.sqrt Real.pi := by
    refine Nlm_sq 0 0 _ (by norm_num) (by positivity) ?_
    have h1 := Real.pi_pos
    simp only [div_pow, mul_pow]
    rw [Real.sq_sqrt (show (0 : ℝ) ≤ Real.pi by positivity)]
    norm_num [Nat.factorial]
    try field_simp
    try norm_num
  rw [densityInner, frustum_int (-(h / 2)) h r2 r1 hh 0 0 (by norm_num), if_pos rfl, hN]
  simp only [QlmACH.conCell, QlmACH.con00, coneM, rc, sum_range_succ, sum_range_zero, zero_add, Nat.reduceDiv, Nat.reduceAdd, Nat.reduceMul,
    Nat.reduceSub, Nat.factorial, Nat.choose]
  have hp : Real.sqrt Real.pi ≠ 0 := (Real.sqrt_pos.2 Real.pi_pos).ne'
  have hpi : Real.pi = Real.sqrt Real.pi ^ 2 := (Real.sq_sqrt Real.pi_pos.le).symm
  generalize Real.sqrt Real.pi = Q at *
  rw [hpi]
  norm_cast
  push_cast
  field_simp
  try ring

theorem con_10 (rho h r1 r2 : ℝ) (hh : 0 < h) :
    QlmACH.conCell rho h r1 r2 1 0 = densityInner rho (frustum (-(h / 2)) ((-(h / 2)) + h) r2 r1) 1 ((0 : ℕ) : ℤ) := by
  have hN : Nlm 1 ((0 : ℕ) : ℤ) = (3 / 2) / (Real.sqrt (3) * Real.sqrt Real.pi) := by
    refine Nlm_sq 1 0 _ (by norm_num) (by positivity) ?_
    have h1 := Real.pi_pos
    simp only [div_pow, mul_pow]
    rw [Real.sq_sqrt (show (0 : ℝ) ≤ 3 by positivity)]
    rw [Real.sq_sqrt (show (0 : ℝ) ≤ Real.pi by positivity)]
    norm_num [Nat.factorial]
    try field_simp
    try norm_num
  rw [densityInner, frustum_int (-(h / 2)) h r2 r1 hh 1 0 (by norm_num), if_pos rfl, hN]
  simp only [QlmACH.conCell, QlmACH.con10, coneM, rc, sum_range_succ, sum_range_zero, zero_add, Nat.reduceDiv, Nat.reduceAdd, Nat.reduceMul,
    Nat.reduceSub, Nat.factorial, Nat.choose]
  have hp : Real.sqrt Real.pi ≠ 0 := (Real.sqrt_pos.2 Real.pi_pos).ne'
  have hs : Real.sqrt (3) ≠ 0 := (Real.sqrt_pos.2 (by positivity)).ne'
  have hpi : Real.pi = Real.sqrt Real.pi ^ 2 := (Real.sq_sqrt Real.pi_pos.le).symm
  generalize Real.sqrt Real.pi = Q at *
  rw [hpi]
  norm_cast
  push_cast
  field_simp
  try ring

theorem con_20 (rho h r1 r2 : ℝ) (hh : 0 < h) :
    QlmACH.conCell rho h r1 r2 2 0 = densityInner rho (frustum (-(h / 2)) ((-(h / 2)) + h) r2 r1) 2 ((0 : ℕ) : ℤ) := by
  have hN : Nlm 2 ((0 : ℕ) : ℤ) = (5) / (Real.sqrt (5) * Real.sqrt Real.pi) := by
    refine Nlm_sq 2 0 _ (by norm_num) (by positivity) ?_
    have h1 := Real.pi_pos
    simp only [div_pow, mul_pow]
    rw [Real.sq_sqrt (show (0 : ℝ) ≤ 5 by positivity)]
    rw [Real.sq_sqrt (show (0 : ℝ) ≤ Real.pi by positivity)]
    norm_num [Nat.factorial]
    try field_simp
    try norm_num
  rw [densityInner, frustum_int (-(h / 2)) h r2 r1 hh 2 0 (by norm_num), if_pos rfl, hN]
  simp only [QlmACH.conCell, QlmACH.con20, coneM, rc, sum_range_succ, sum_range_zero, zero_add, Nat.reduceDiv, Nat.reduceAdd, Nat.reduceMul,
    Nat.reduceSub, Nat.factorial, Nat.choose]
  have hp : Real.sqrt Real.pi ≠ 0 := (Real.sqrt_pos.2 Real.pi_pos).ne'
  have hs : Real.sqrt (5) ≠ 0 := (Real.sqrt_pos.2 (by positivity)).ne'
  have hpi : Real.pi = Real.sqrt Real.pi ^ 2 := (Real.sq_sqrt Real.pi_pos.le).symm
  generalize Real.sqrt Real.pi = Q at *
  rw [hpi]
  norm_cast
  push_cast
  field_simp
  try ring

theorem con_30 (rho h r1 r2 : ℝ) (hh : 0 < h) :
    QlmACH.conCell rho h r1 r2 3 0 = densityInner rho (frustum (-(h / 2)) ((-(h / 2)) + h) r2 r1) 3 ((0 : ℕ) : ℤ) := by
  have hN : Nlm 3 ((0 : ℕ) : ℤ) = (3) * Real.sqrt (7) / Real.sqrt Real.pi := by
    refine Nlm_sq 3 0 _ (by norm_num) (by positivity) ?_
    have h1 := Real.pi_pos
    simp only [div_pow, mul_pow]
    rw [Real.sq_sqrt (show (0 : ℝ) ≤ 7 by positivity)]
    rw [Real.sq_sqrt (show (0 : ℝ) ≤ Real.pi by positivity)]
    norm_num [Nat.factorial]
    try field_simp
    try norm_num
  rw [densityInner, frustum_int (-(h / 2)) h r2 r1 hh 3 0 (by norm_num), if_pos rfl, hN]
  simp only [QlmACH.conCell, QlmACH.con30, coneM, rc, sum_range_succ, sum_range_zero, zero_add, Nat.reduceDiv, Nat.reduceAdd, Nat.reduceMul,
    Nat.reduceSub, Nat.factorial, Nat.choose]
  have hp : Real.sqrt Real.pi ≠ 0 := (Real.sqrt_pos.2 Real.pi_pos).ne'
  have hs : Real.sqrt (7) ≠ 0 := (Real.sqrt_pos.2 (by positivity)).ne'
  have hpi : Real.pi = Real.sqrt Real.pi ^ 2 := (Real.sq_sqrt Real.pi_pos.le).symm
  generalize Real.sqrt Real.pi = Q at *
  rw [hpi]
  norm_cast
  push_cast
  field_simp
  try ring

theorem con_40 (rho h r1 r2 : ℝ) (hh : 0 < h) :
    QlmACH.conCell rho h r1 r2 4 0 = densityInner rho (frustum (-(h / 2)) ((-(h / 2)) + h) r2 r1) 4 ((0 : ℕ) : ℤ) := by
  have hN : Nlm 4 ((0 : ℕ) : ℤ) = (36) / Real.sqrt Real.pi := by
    refine Nlm_sq 4 0 _ (by norm_num) (by positivity) ?_
    have h1 := Real.pi_pos
    simp only [div_pow, mul_pow]
    rw [Real.sq_sqrt (show (0 : ℝ) ≤ Real.pi by positivity)]
    norm_num [Nat.factorial]
    try field_simp
    try norm_num
  rw [densityInner, frustum_int (-(h / 2)) h r2 r1 hh 4 0 (by norm_num), if_pos rfl, hN]
  simp only [QlmACH.conCell, QlmACH.con40, coneM, rc, sum_range_succ, sum_range_zero, zero_add, Nat.reduceDiv, Nat.reduceAdd, Nat.reduceMul,
    Nat.reduceSub, Nat.factorial, Nat.choose]
  have hp : Real.sqrt Real.pi ≠ 0 := (Real.sqrt_pos.2 Real.pi_pos).ne'
  have hpi : Real.pi = Real.sqrt Real.pi ^ 2 := (Real.sq_sqrt Real.pi_pos.le).symm
  generalize Real.sqrt Real.pi = Q at *
  rw [hpi]
  norm_cast
  push_cast
  field_simp
  try ring

theorem con_50 (rho h r1 r2 : ℝ) (hh : 0 < h) :
    QlmACH.conCell rho h r1 r2 5 0 = densityInner rho (frustum (-(h / 2)) ((-(h / 2)) + h) r2 r1) 5 ((0 : ℕ) : ℤ)
      - ((rho * Real.sqrt Real.pi * h ^ 2 * (r1 ^ 2 - r2 ^ 2) * (5 * (2 * r1 ^ 2 * r2 * (r1 - 1))) * Real.sqrt 11 / 896 : ℝ) : ℂ) := by
  have hN : Nlm 5 ((0 : ℕ) : ℤ) = (60) * Real.sqrt (11) / Real.sqrt Real.pi := by
    refine Nlm_sq 5 0 _ (by norm_num) (by positivity) ?_
    have h1 := Real.pi_pos
    simp only [div_pow, mul_pow]
    rw [Real.sq_sqrt (show (0 : ℝ) ≤ 11 by positivity)]
    rw [Real.sq_sqrt (show (0 : ℝ) ≤ Real.pi by positivity)]
    norm_num [Nat.factorial]
    try field_simp
    try norm_num
  rw [densityInner, frustum_int (-(h / 2)) h r2 r1 hh 5 0 (by norm_num), if_pos rfl, hN]
  simp only [QlmACH.conCell, QlmACH.con50, coneM, rc, sum_range_succ, sum_range_zero, zero_add, Nat.reduceDiv, Nat.reduceAdd, Nat.reduceMul,
    Nat.reduceSub, Nat.factorial, Nat.choose]
  have hp : Real.sqrt Real.pi ≠ 0 := (Real.sqrt_pos.2 Real.pi_pos).ne'
  have hs : Real.sqrt (11) ≠ 0 := (Real.sqrt_pos.2 (by positivity)).ne'
  have hpi : Real.pi = Real.sqrt Real.pi ^ 2 := (Real.sq_sqrt Real.pi_pos.le).symm
  generalize Real.sqrt Real.pi = Q at *
  rw [hpi]
  norm_cast
  push_cast
  field_simp
  try ring

theorem con_pos (rho h r1 r2 : ℝ) (hh : 0 < h) (l m : ℕ) (hm : m ≤ l) (h0 : m ≠ 0) :
    QlmACH.conCell rho h r1 r2 l m = densityInner rho (frustum (-(h / 2)) ((-(h / 2)) + h) r2 r1) l (m : ℤ) := by
  rw [densityInner, frustum_int (-(h / 2)) h r2 r1 hh l m hm, if_neg h0, mul_zero]
  unfold QlmACH.conCell
  split <;> first | rfl | (exact absurd rfl h0)

theorem con_high (rho h r1 r2 : ℝ) (l m : ℕ) (hl : 5 < l) : QlmACH.conCell rho h r1 r2 l m = 0 := by
  obtain ⟨k, rfl⟩ : ∃ k, l = k + 6 := ⟨l - 6, by omega⟩
  rfl

theorem conTwo_00 (rho h r1 r2 : ℝ) (hh : 0 < h) :
    QlmACH.conTwoCell rho h r1 r2 0 0 = densityInner rho (frustum 0 (0 + h) r1 r2) 0 ((0 : ℕ) : ℤ) := by
  have hN : Nlm 0 ((0 : ℕ) : ℤ) = (1 / 2) / Real.sqrt Real.pi := by
    refine Nlm_sq 0 0 _ (by norm_num) (by positivity) ?_
    have h1 := Real.pi_pos
    simp only [div_pow, mul_pow]
    rw [Real.sq_sqrt (show (0 : ℝ) ≤ Real.pi by positivity)]
    norm_num [Nat.factorial]
    try field_simp
    try norm_num
  rw [densityInner, frustum_int 0 h r1 r2 hh 0 0 (by norm_num), if_pos rfl, hN]
  simp only [QlmACH.conTwoCell, QlmACH.conTwo00, coneM, rc, sum_range_succ, sum_range_zero, zero_add, Nat.reduceDiv, Nat.reduceAdd, Nat.reduceMul,
    Nat.reduceSub, Nat.factorial, Nat.choose]
  have hp : Real.sqrt Real.pi ≠ 0 := (Real.sqrt_pos.2 Real.pi_pos).ne'
  have hpi : Real.pi = Real.sqrt Real.pi ^ 2 := (Real.sq_sqrt Real.pi_pos.le).symm
  generalize Real.sqrt Real.pi = Q at *
  rw [hpi]
  norm_cast
  push_cast
  field_simp
  try ring

theorem conTwo_10 (rho h r1 r2 : ℝ) (hh : 0 < h) :
    QlmACH.conTwoCell rho h r1 r2 1 0 = densityInner rho (frustum 0 (0 + h) r1 r2) 1 ((0 : ℕ) : ℤ) := by
  have hN : Nlm 1 ((0 : ℕ) : ℤ) = (3 / 2) / (Real.sqrt (3) * Real.sqrt Real.pi) := by
    refine Nlm_sq 1 0 _ (by norm_num) (by positivity) ?_
    have h1 := Real.pi_pos
    simp only [div_pow, mul_pow]
    rw [Real.sq_sqrt (show (0 : ℝ) ≤ 3 by positivity)]
    rw [Real.sq_sqrt (show (0 : ℝ) ≤ Real.pi by positivity)]
    norm_num [Nat.factorial]
    try field_simp
    try norm_num
  rw [densityInner, frustum_int 0 h r1 r2 hh 1 0 (by norm_num), if_pos rfl, hN]
  simp only [QlmACH.conTwoCell, QlmACH.conTwo10, coneM, rc, sum_range_succ, sum_range_zero, zero_add, Nat.reduceDiv, Nat.reduceAdd, Nat.reduceMul,
    Nat.reduceSub, Nat.factorial, Nat.choose]
  have hp : Real.sqrt Real.pi ≠ 0 := (Real.sqrt_pos.2 Real.pi_pos).ne'
  have hs : Real.sqrt (3) ≠ 0 := (Real.sqrt_pos.2 (by positivity)).ne'
  have hpi : Real.pi = Real.sqrt Real.pi ^ 2 := (Real.sq_sqrt Real.pi_pos.le).symm
  generalize Real.sqrt Real.pi = Q at *
  rw [hpi]
  norm_cast
  push_cast
  field_simp
  try ring

theorem conTwo_20 (rho h r1 r2 : ℝ) (hh : 0 < h) :
    QlmACH.conTwoCell rho h r1 r2 2 0 = densityInner rho (frustum 0 (0 + h) r1 r2) 2 ((0 : ℕ) : ℤ)
      - ((rho * Real.sqrt Real.pi * h * (3 * (r1 ^ 3 * r2 + 2 * r1 ^ 2 * r2 ^ 2)) / (24 * Real.sqrt 5) : ℝ) : ℂ) := by
  have hN : Nlm 2 ((0 : ℕ) : ℤ) = (5) / (Real.sqrt (5) * Real.sqrt Real.pi) := by
    refine Nlm_sq 2 0 _ (by norm_num) (by positivity) ?_
    have h1 := Real.pi_pos
    simp only [div_pow, mul_pow]
    rw [Real.sq_sqrt (show (0 : ℝ) ≤ 5 by positivity)]
    rw [Real.sq_sqrt (show (0 : ℝ) ≤ Real.pi by positivity)]
    norm_num [Nat.factorial]
    try field_simp
    try norm_num
  rw [densityInner, frustum_int 0 h r1 r2 hh 2 0 (by norm_num), if_pos rfl, hN]
  simp only [QlmACH.conTwoCell, QlmACH.conTwo20, coneM, rc, sum_range_succ, sum_range_zero, zero_add, Nat.reduceDiv, Nat.reduceAdd, Nat.reduceMul,
    Nat.reduceSub, Nat.factorial, Nat.choose]
  have hp : Real.sqrt Real.pi ≠ 0 := (Real.sqrt_pos.2 Real.pi_pos).ne'
  have hs : Real.sqrt (5) ≠ 0 := (Real.sqrt_pos.2 (by positivity)).ne'
  have hpi : Real.pi = Real.sqrt Real.pi ^ 2 := (Real.sq_sqrt Real.pi_pos.le).symm
  generalize Real.sqrt Real.pi = Q at *
  rw [hpi]
  norm_cast
  push_cast
  field_simp
  try ring

theorem conTwo_30 (rho h r1 r2 : ℝ) (hh : 0 < h) :
    QlmACH.conTwoCell rho h r1 r2 3 0 = densityInner rho (frustum 0 (0 + h) r1 r2) 3 ((0 : ℕ) : ℤ) := by
  have hN : Nlm 3 ((0 : ℕ) : ℤ) = (3) * Real.sqrt (7) / Real.sqrt Real.pi := by
    refine Nlm_sq 3 0 _ (by norm_num) (by positivity) ?_
    have h1 := Real.pi_pos
    simp only [div_pow, mul_pow]
    rw [Real.sq_sqrt (show (0 : ℝ) ≤ 7 by positivity)]
    rw [Real.sq_sqrt (show (0 : ℝ) ≤ Real.pi by positivity)]
    norm_num [Nat.factorial]
    try field_simp
    try norm_num
  rw [densityInner, frustum_int 0 h r1 r2 hh 3 0 (by norm_num), if_pos rfl, hN]
  simp only [QlmACH.conTwoCell, QlmACH.conTwo30, coneM, rc, sum_range_succ, sum_range_zero, zero_add, Nat.reduceDiv, Nat.reduceAdd, Nat.reduceMul,
    Nat.reduceSub, Nat.factorial, Nat.choose]
  have hp : Real.sqrt Real.pi ≠ 0 := (Real.sqrt_pos.2 Real.pi_pos).ne'
  have hs : Real.sqrt (7) ≠ 0 := (Real.sqrt_pos.2 (by positivity)).ne'
  have hpi : Real.pi = Real.sqrt Real.pi ^ 2 := (Real.sq_sqrt Real.pi_pos.le).symm
  generalize Real.sqrt Real.pi = Q at *
  rw [hpi]
  norm_cast
  push_cast
  field_simp
  try ring

theorem conTwo_40 (rho h r1 r2 : ℝ) (hh : 0 < h) :
    QlmACH.conTwoCell rho h r1 r2 4 0 = densityInner rho (frustum 0 (0 + h) r1 r2) 4 ((0 : ℕ) : ℤ) := by
  have hN : Nlm 4 ((0 : ℕ) : ℤ) = (36) / Real.sqrt Real.pi := by
    refine Nlm_sq 4 0 _ (by norm_num) (by positivity) ?_
    have h1 := Real.pi_pos
    simp only [div_pow, mul_pow]
    rw [Real.sq_sqrt (show (0 : ℝ) ≤ Real.pi by positivity)]
    norm_num [Nat.factorial]
    try field_simp
    try norm_num
  rw [densityInner, frustum_int 0 h r1 r2 hh 4 0 (by norm_num), if_pos rfl, hN]
  simp only [QlmACH.conTwoCell, QlmACH.conTwo40, coneM, rc, sum_range_succ, sum_range_zero, zero_add, Nat.reduceDiv, Nat.reduceAdd, Nat.reduceMul,
    Nat.reduceSub, Nat.factorial, Nat.choose]
  have hp : Real.sqrt Real.pi ≠ 0 := (Real.sqrt_pos.2 Real.pi_pos).ne'
  have hpi : Real.pi = Real.sqrt Real.pi ^ 2 := (Real.sq_sqrt Real.pi_pos.le).symm
  generalize Real.sqrt Real.pi = Q at *
  rw [hpi]
  norm_cast
  push_cast
  field_simp
  try ring

theorem conTwo_50 (rho h r1 r2 : ℝ) (hh : 0 < h) :
    QlmACH.conTwoCell rho h r1 r2 5 0 = densityInner rho (frustum 0 (0 + h) r1 r2) 5 ((0 : ℕ) : ℤ) := by
  have hN : Nlm 5 ((0 : ℕ) : ℤ) = (60) * Real.sqrt (11) / Real.sqrt Real.pi := by
    refine Nlm_sq 5 0 _ (by norm_num) (by positivity) ?_
    have h1 := Real.pi_pos
    simp only [div_pow, mul_pow]
    rw [Real.sq_sqrt (show (0 : ℝ) ≤ 11 by positivity)]
    rw [Real.sq_sqrt (show (0 : ℝ) ≤ Real.pi by positivity)]
    norm_num [Nat.factorial]
    try field_simp
    try norm_num
  rw [densityInner, frustum_int 0 h r1 r2 hh 5 0 (by norm_num), if_pos rfl, hN]
  simp only [QlmACH.conTwoCell, QlmACH.conTwo50, coneM, rc, sum_range_succ, sum_range_zero, zero_add, Nat.reduceDiv, Nat.reduceAdd, Nat.reduceMul,
    Nat.reduceSub, Nat.factorial, Nat.choose]
  have hp : Real.sqrt Real.pi ≠ 0 := (Real.sqrt_pos.2 Real.pi_pos).ne'
  have hs : Real.sqrt (11) ≠ 0 := (Real.sqrt_pos.2 (by positivity)).ne'
  have hpi : Real.pi = Real.sqrt Real.pi ^ 2 := (Real.sq_sqrt Real.pi_pos.le).symm
  generalize Real.sqrt Real.pi = Q at *
  rw [hpi]
  norm_cast
  push_cast
  field_simp
  try ring

theorem conTwo_pos (rho h r1 r2 : ℝ) (hh : 0 < h) (l m : ℕ) (hm : m ≤ l) (h0 : m ≠ 0) :
    QlmACH.conTwoCell rho h r1 r2 l m = densityInner rho (frustum 0 (0 + h) r1 r2) l (m : ℤ) := by
  rw [densityInner, frustum_int 0 h r1 r2 hh l m hm, if_neg h0, mul_zero]
  unfold QlmACH.conTwoCell
  split <;> first | rfl | (exact absurd rfl h0)

theorem conTwo_high (rho h r1 r2 : ℝ) (l m : ℕ) (hl : 5 < l) : QlmACH.conTwoCell rho h r1 r2 l m = 0 := by
  obtain ⟨k, rfl⟩ : ∃ k, l = k + 6 := ⟨l - 6, by omega⟩
  rfl

end Newt.Ach
