import Mathlib.Analysis.SpecificLimits.Normed
import Mathlib.Algebra.Order.Chebyshev
import Verif.Proofs.TransRounding3
import Verif.Props.CGTable

/-!
# The sizes of translated moments without regard to sign, in closed form
-/

namespace Newt

open Spec

theorem cg_sq_sum_le (j1 j2 J M : ℤ) : ∑ m ∈ Finset.Icc (-j2) j2, cgCoeff j1 j2 (M - m) m J M ^ 2 ≤ 1 := by
  by_cases hv : |j1 - j2| ≤ J ∧ J ≤ j1 + j2 ∧ |M| ≤ J
  swap
  · rw [Finset.sum_eq_zero]
    · norm_num
    · intro m _
      rw [cgCoeff_invalid (fun h => hv ⟨h.2.2.2.1, h.2.2.2.2.1, h.2.2.1⟩)]; norm_num
  obtain ⟨h1, h2, h3⟩ := hv
  have h := C103_orthonormal j1 j2 J M J M h1 h2 h3
  rw [if_pos ⟨rfl, rfl⟩, Finset.sum_comm] at h
  rw [← h]
  refine Finset.sum_le_sum fun m _ => ?_
  by_cases hm : M - m ∈ Finset.Icc (-j1) j1
  · rw [sq]
    exact Finset.single_le_sum (f := fun m1 => cgCoeff j1 j2 m1 m J M * cgCoeff j1 j2 m1 m J M) (fun i _ => mul_self_nonneg _) hm
  · rw [cgCoeff_invalid (fun h => hm (Finset.mem_Icc.2 (abs_le.1 h.1)))]
    rw [zero_pow (by norm_num)]
    exact Finset.sum_nonneg fun i _ => mul_self_nonneg _

theorem cg_sq_sum_le' (j1 j2 J M : ℤ) : ∑ m ∈ Finset.Icc (-j1) j1, cgCoeff j1 j2 (-m) (M + m) J M ^ 2 ≤ 1 := by
  by_cases hv : |j1 - j2| ≤ J ∧ J ≤ j1 + j2 ∧ |M| ≤ J
  swap
  · rw [Finset.sum_eq_zero]
    · norm_num
    · intro m _
      rw [cgCoeff_invalid (fun h => hv ⟨h.2.2.2.1, h.2.2.2.2.1, h.2.2.1⟩)]; norm_num
  obtain ⟨h1, h2, h3⟩ := hv
  have h := C103_orthonormal j1 j2 J M J M h1 h2 h3
  rw [if_pos ⟨rfl, rfl⟩] at h
  rw [← h]
  have e : ∑ m ∈ Finset.Icc (-j1) j1, cgCoeff j1 j2 (-m) (M + m) J M ^ 2 = ∑ m ∈ Finset.Icc (-j1) j1, cgCoeff j1 j2 m (M - m) J M ^ 2 := by
    refine Finset.sum_bij (fun m _ => -m) ?_ ?_ ?_ ?_
    · intro m hm; rw [Finset.mem_Icc] at hm ⊢; omega
    · intro i _ j _ h; omega
    · intro m hm; rw [Finset.mem_Icc] at hm; exact ⟨-m, by rw [Finset.mem_Icc]; omega, by omega⟩
    · intro m _; rw [sub_neg_eq_add]
  rw [e]
  refine Finset.sum_le_sum fun m _ => ?_
  by_cases hm : M - m ∈ Finset.Icc (-j2) j2
  · rw [sq]
    exact Finset.single_le_sum (f := fun m2 => cgCoeff j1 j2 m m2 J M * cgCoeff j1 j2 m m2 J M) (fun i _ => mul_self_nonneg _) hm
  · rw [cgCoeff_invalid (fun h => hm (Finset.mem_Icc.2 (abs_le.1 h.2.1)))]
    rw [zero_pow (by norm_num)]
    exact Finset.sum_nonneg fun i _ => mul_self_nonneg _

/-- Cauchy and Schwarz. -/
theorem sum_le_sqrt_card {ι : Type} (s : Finset ι) (f : ι → ℝ) {B : ℝ} {n : ℕ} (hn : s.card ≤ n) (hB : ∑ i ∈ s, f i ^ 2 ≤ B) : ∑ i ∈ s, f i ≤ Real.sqrt (n * B) := by
  refine Real.le_sqrt_of_sq_le ((sq_sum_le_card_mul_sum_sq (s := s) (f := f)).trans ?_)
  have h1 : (0 : ℝ) ≤ ∑ i ∈ s, f i ^ 2 := Finset.sum_nonneg fun i _ => sq_nonneg _
  have h2 : (s.card : ℝ) ≤ n := by exact_mod_cast hn
  exact mul_le_mul h2 hB h1 (Nat.cast_nonneg _)

theorem cg_abs_sum_le (l : ℕ) (N : ℕ) (hl : l ≤ N) (f : ℤ → ℝ) (h : ∑ m ∈ Finset.Icc (-(l : ℤ)) l, f m ^ 2 ≤ 1) :
    ∑ m ∈ Finset.Icc (-(l : ℤ)) l, |f m| ≤ Real.sqrt (2 * N + 1) := by
  have := sum_le_sqrt_card (Finset.Icc (-(l : ℤ)) l) (fun m => |f m|) (n := 2 * N + 1) (B := 1) (by rw [Int.card_Icc]; omega) (by simpa only [sq_abs] using h)
  rw [mul_one] at this
  push_cast at this
  exact this

/-- The orders of one degree together. -/
theorem orders_le (l N : ℕ) (hl : l ≤ N) {F H W : ℝ} (hF : 0 ≤ F) (hH : 0 ≤ H) (hW : 0 ≤ W) (f : ℤ → ℝ) (h : ∑ m ∈ Finset.Icc (-(l : ℤ)) l, f m ^ 2 ≤ 1) (w : ℤ → ℝ)
    (hw : ∀ m : ℤ, m.natAbs ≤ l → w m ≤ W) :
    ∑ m ∈ Finset.Icc (-(l : ℤ)) l, F * |f m| * H * w m ≤ Real.sqrt (2 * N + 1) * (F * H * W) := by
  calc _ ≤ ∑ m ∈ Finset.Icc (-(l : ℤ)) l, |f m| * (F * H * W) := by
        refine Finset.sum_le_sum fun m hm => ?_
        rw [Finset.mem_Icc] at hm
        have := mul_le_mul_of_nonneg_left (hw m (by omega)) (mul_nonneg (mul_nonneg hF (abs_nonneg (f m))) hH)
        nlinarith
    _ = (∑ m ∈ Finset.Icc (-(l : ℤ)) l, |f m|) * (F * H * W) := by rw [Finset.sum_mul]
    _ ≤ _ := mul_le_mul_of_nonneg_right (cg_abs_sum_le l N hl f h) (by positivity)

theorem harmMax_prod (a b : ℕ) (x : ℝ) (hx : 0 ≤ x) : Real.sqrt (4 * Real.pi * x) * harmMax a * harmMax b = Real.sqrt ((2 * a + 1) * (2 * b + 1) * x / (4 * Real.pi)) := by
  have hpi := Real.pi_pos
  rw [harmMax, harmMax, ← Real.sqrt_mul (by positivity), ← Real.sqrt_mul (by positivity)]
  congr 1
  field_simp

theorem harmMax_choose (L : ℕ) (x : ℝ) : harmMax L * Real.sqrt x = Real.sqrt ((2 * L + 1) * x / (4 * Real.pi)) := by
  have hpi := Real.pi_pos
  rw [harmMax, ← Real.sqrt_mul (by positivity)]
  congr 1
  ring

theorem innerFac_harm {L l : ℕ} (hl : l ≤ L) (d : ℝ) : innerFac L l d * harmMax (L - l) * harmMax l = harmMax L * (Real.sqrt ((2 * L).choose (2 * l)) * d ^ (L - l)) := by
  rw [innerFac, ← mul_assoc, harmMax_choose, mul_right_comm _ (d ^ (L - l)) (harmMax (L - l)), mul_right_comm _ (d ^ (L - l)) (harmMax l), harmMax_prod _ _ _ (by positivity)]
  congr 3
  have h := Nat.choose_mul_factorial_mul_factorial (by omega : 2 * l ≤ 2 * L)
  rw [show 2 * L - 2 * l = 2 * (L - l) by omega] at h
  have h' : ((2 * L).choose (2 * l) : ℝ) * (2 * l).factorial * (2 * (L - l)).factorial = (2 * L).factorial := by exact_mod_cast h
  rw [Nat.factorial_succ (2 * L), Nat.factorial_succ (2 * l), Nat.factorial_succ (2 * (L - l))]
  have p1 := Nat.factorial_pos (2 * l)
  have p2 := Nat.factorial_pos (2 * (L - l))
  push_cast
  rw [← h']
  field_simp

theorem outerFac_harm {L j : ℕ} (x : ℝ) : outerFac L (L + j) x * harmMax (L + j - L) * harmMax (L + j) = harmMax L * (Real.sqrt ((2 * j + (2 * L + 1)).choose (2 * L + 1)) * x ^ j) := by
  rw [outerFac, Nat.add_sub_cancel_left, ← mul_assoc, harmMax_choose, mul_right_comm _ (x ^ j) (harmMax j), mul_right_comm _ (x ^ j) (harmMax (L + j)), harmMax_prod _ _ _ (by positivity)]
  congr 3
  have h := Nat.choose_mul_factorial_mul_factorial (by omega : 2 * L + 1 ≤ 2 * j + (2 * L + 1))
  rw [show 2 * j + (2 * L + 1) - (2 * L + 1) = 2 * j by omega] at h
  have h' : ((2 * j + (2 * L + 1)).choose (2 * L + 1) : ℝ) * (2 * L + 1).factorial * (2 * j).factorial = (2 * j + (2 * L + 1)).factorial := by exact_mod_cast h
  rw [show 2 * j + (2 * L + 1) = 2 * (L + j) + 1 by ring, Nat.factorial_succ (2 * (L + j)), Nat.factorial_succ (2 * L)] at h'
  rw [Nat.factorial_succ (2 * j), show 2 * j + (2 * L + 1) = 2 * (L + j) + 1 by ring]
  have p1 := Nat.factorial_pos (2 * L)
  have p2 := Nat.factorial_pos (2 * j)
  push_cast at h' ⊢
  field_simp
  linarith

theorem crossFac_harm {L l : ℕ} (x : ℝ) : crossFac L l x * harmMax (L + l) * harmMax l = harmMax L * (Real.sqrt ((2 * l + (2 * L + 1)).choose (2 * L + 1)) / x ^ (L + l + 1)) := by
  have h := outerFac_harm (L := L) (j := l) 1
  rw [Nat.add_sub_cancel_left, outerFac, one_pow, one_pow, mul_one, mul_one, Nat.add_sub_cancel_left] at h
  rw [crossFac, ← mul_div_assoc (harmMax L), ← h]
  ring

/-- The sum over the degrees, inner moments. -/
theorem choose_sum_le (L : ℕ) {r d : ℝ} (hr : 0 ≤ r) (hd : 0 ≤ d) :
    ∑ l ∈ Finset.range (L + 1), Real.sqrt ((2 * L).choose (2 * l)) * d ^ (L - l) * r ^ l ≤ Real.sqrt (L + 1) * (r + d) ^ L := by
  have h := sum_le_sqrt_card (Finset.range (L + 1)) (fun l => Real.sqrt ((2 * L).choose (2 * l)) * d ^ (L - l) * r ^ l) (n := L + 1) (B := ((r + d) ^ L) ^ 2) (by simp) ?_
  · rw [Real.sqrt_mul (by positivity), Real.sqrt_sq (by positivity)] at h
    push_cast at h
    exact h
  · have e1 : ((r + d) ^ L) ^ 2 = ∑ i ∈ Finset.range (2 * L + 1), r ^ i * d ^ (2 * L - i) * ((2 * L).choose i) := by rw [← pow_mul, mul_comm L 2, add_pow]
    rw [e1]
    have e2 : ∀ l ∈ Finset.range (L + 1), (Real.sqrt ((2 * L).choose (2 * l)) * d ^ (L - l) * r ^ l) ^ 2 = (fun i => r ^ i * d ^ (2 * L - i) * ((2 * L).choose i : ℝ)) (2 * l) := by
      intro l _
      dsimp only
      rw [mul_pow, mul_pow, Real.sq_sqrt (by positivity), ← pow_mul, ← pow_mul, show 2 * L - 2 * l = (L - l) * 2 by omega, mul_comm 2 l]
      ring
    rw [Finset.sum_congr rfl e2, ← Finset.sum_image (f := fun i => r ^ i * d ^ (2 * L - i) * ((2 * L).choose i : ℝ)) (g := fun l => 2 * l) (fun a _ b _ h => by simpa using h)]
    refine Finset.sum_le_sum_of_subset_of_nonneg ?_ fun i _ _ => by positivity
    intro i hi
    rw [Finset.mem_image] at hi
    obtain ⟨l, hl, rfl⟩ := hi
    rw [Finset.mem_range] at hl ⊢; omega

/-- The sum over the degrees, outer moments. -/
theorem choose_geom_le (L n : ℕ) {x : ℝ} (hx : 0 ≤ x) (hx1 : x < 1) :
    ∑ j ∈ Finset.range n, Real.sqrt ((2 * j + (2 * L + 1)).choose (2 * L + 1)) * x ^ j ≤ Real.sqrt n * (1 / (1 - x) ^ (L + 1)) := by
  have hp : 0 < 1 - x := by linarith
  have h := sum_le_sqrt_card (Finset.range n) (fun j => Real.sqrt ((2 * j + (2 * L + 1)).choose (2 * L + 1)) * x ^ j) (n := n) (B := (1 / (1 - x) ^ (L + 1)) ^ 2) (by simp) ?_
  · rwa [Real.sqrt_mul (by positivity), Real.sqrt_sq (by positivity)] at h
  · have hn : ‖x‖ < 1 := by rw [Real.norm_eq_abs, abs_of_nonneg hx]; exact hx1
    have hs := summable_choose_mul_geometric_of_norm_lt_one (2 * L + 1) hn
    have ht := tsum_choose_mul_geometric_of_norm_lt_one (2 * L + 1) hn
    have e1 : (1 / (1 - x) ^ (L + 1)) ^ 2 = 1 / (1 - x) ^ (2 * L + 1 + 1) := by rw [div_pow, one_pow, ← pow_mul]; congr 2; ring
    rw [e1, ← ht]
    have e2 : ∀ j ∈ Finset.range n, (Real.sqrt ((2 * j + (2 * L + 1)).choose (2 * L + 1)) * x ^ j) ^ 2 = (fun i => ((i + (2 * L + 1)).choose (2 * L + 1) : ℝ) * x ^ i) (2 * j) := by
      intro j _
      rw [mul_pow, Real.sq_sqrt (by positivity), ← pow_mul, mul_comm j 2]
    rw [Finset.sum_congr rfl e2, ← Finset.sum_image (f := fun i => ((i + (2 * L + 1)).choose (2 * L + 1) : ℝ) * x ^ i) (g := fun l => 2 * l) (fun a _ b _ h => by simpa using h)]
    exact hs.sum_le_tsum _ fun i _ => by positivity

theorem sqrt_two (N : ℕ) : Real.sqrt (2 * N + 1) * Real.sqrt (N + 1) ≤ 2 * N + 1 := by
  rw [← Real.sqrt_mul (by positivity)]
  refine Real.sqrt_le_iff.2 ⟨by positivity, ?_⟩
  have : (0 : ℝ) ≤ N := Nat.cast_nonneg _
  nlinarith

theorem grossInner_le {w : ℕ → ℤ → ℝ} {K r d : ℝ} (hK : 0 ≤ K) (hr : 0 ≤ r) (hd : 0 ≤ d) {L : ℕ} (hw : ∀ (l : ℕ) (m : ℤ), l ≤ L → m.natAbs ≤ l → w l m ≤ K * r ^ l * harmMax l) (M : ℤ) :
    grossInner w d L M ≤ (2 * L + 1) * (K * (r + d) ^ L * harmMax L) := by
  have hH := harmMax_nonneg
  calc grossInner w d L M ≤ ∑ l ∈ Finset.range (L + 1), Real.sqrt (2 * L + 1) * (innerFac L l d * harmMax (L - l) * (K * r ^ l * harmMax l)) := by
        refine Finset.sum_le_sum fun l hl => ?_
        rw [Finset.mem_range] at hl
        exact orders_le l L (by omega) (innerFac_nonneg L l hd) (hH _) (by have := hH l; positivity) _ (cg_sq_sum_le (L - l : ℕ) l L M) _ (fun m hm => hw l m (by omega) hm)
    _ = Real.sqrt (2 * L + 1) * (K * harmMax L * ∑ l ∈ Finset.range (L + 1), Real.sqrt ((2 * L).choose (2 * l)) * d ^ (L - l) * r ^ l) := by
        rw [Finset.mul_sum, Finset.mul_sum]
        refine Finset.sum_congr rfl fun l hl => ?_
        rw [Finset.mem_range] at hl
        have := innerFac_harm (by omega : l ≤ L) d
        congr 1
        linear_combination (K * r ^ l) * this
    _ ≤ Real.sqrt (2 * L + 1) * (K * harmMax L * (Real.sqrt (L + 1) * (r + d) ^ L)) := by
        have := hH L
        have := choose_sum_le L hr hd
        gcongr
    _ = Real.sqrt (2 * L + 1) * Real.sqrt (L + 1) * (K * (r + d) ^ L * harmMax L) := by ring
    _ ≤ _ := mul_le_mul_of_nonneg_right (sqrt_two L) (by have := hH L; positivity)

theorem grossOuter_le {LMax : ℕ} {w : ℕ → ℤ → ℝ} {K R d : ℝ} (hK : 0 ≤ K) (hd : 0 ≤ d) (hR : d < R) {L : ℕ} (hL : L ≤ LMax)
    (hw : ∀ (l : ℕ) (m : ℤ), l ≤ LMax → m.natAbs ≤ l → w l m ≤ K * (1 / R ^ (l + 1)) * harmMax l) (M : ℤ) :
    grossOuter LMax w d L M ≤ (2 * LMax + 1) * (K * (1 / (R - d) ^ (L + 1)) * harmMax L) := by
  have hH := harmMax_nonneg
  have hR0 : 0 < R := by linarith
  have hRd : 0 < R - d := by linarith
  have hx : 0 ≤ d / R := by positivity
  have hx1 : d / R < 1 := by rw [div_lt_one hR0]; exact hR
  calc grossOuter LMax w d L M ≤ ∑ l ∈ Finset.Icc L LMax, Real.sqrt (2 * LMax + 1) * (outerFac L l d * harmMax (l - L) * (K * (1 / R ^ (l + 1)) * harmMax l)) := by
        refine Finset.sum_le_sum fun l hl => ?_
        rw [Finset.mem_Icc] at hl
        exact orders_le l LMax (by omega) (outerFac_nonneg L l hd) (hH _) (by have := hH l; positivity) _ (cg_sq_sum_le (l - L : ℕ) l L M) _ (fun m hm => hw l m (by omega) hm)
    _ = ∑ j ∈ Finset.range (LMax + 1 - L), Real.sqrt (2 * LMax + 1) * (outerFac L (L + j) d * harmMax (L + j - L) * (K * (1 / R ^ (L + j + 1)) * harmMax (L + j))) := by
        symm
        refine Finset.sum_bij (fun j _ => L + j) ?_ ?_ ?_ ?_
        · intro j hj; rw [Finset.mem_range] at hj; rw [Finset.mem_Icc]; omega
        · intro i _ j _ h; omega
        · intro l hl; rw [Finset.mem_Icc] at hl; exact ⟨l - L, by rw [Finset.mem_range]; omega, by omega⟩
        · intro j _; rfl
    _ = Real.sqrt (2 * LMax + 1) * (K * harmMax L * (1 / R ^ (L + 1)) * ∑ j ∈ Finset.range (LMax + 1 - L), Real.sqrt ((2 * j + (2 * L + 1)).choose (2 * L + 1)) * (d / R) ^ j) := by
        rw [Finset.mul_sum, Finset.mul_sum]
        refine Finset.sum_congr rfl fun j hj => ?_
        have := outerFac_harm (L := L) (j := j) d
        have e1 : (d / R) ^ j = d ^ j * (R ^ (L + 1) * (1 / R ^ (L + j + 1))) := by
          rw [div_pow, show L + j + 1 = L + 1 + j by ring, pow_add R (L + 1) j]; field_simp
        have e2 : 1 / R ^ (L + 1) * R ^ (L + 1) = 1 := by field_simp
        rw [e1]
        congr 1
        linear_combination (K * (1 / R ^ (L + j + 1))) * this - (K * harmMax L * Real.sqrt ((2 * j + (2 * L + 1)).choose (2 * L + 1)) * d ^ j * (1 / R ^ (L + j + 1))) * e2
    _ ≤ Real.sqrt (2 * LMax + 1) * (K * harmMax L * (1 / R ^ (L + 1)) * (Real.sqrt (LMax + 1) * (1 / (1 - d / R) ^ (L + 1)))) := by
        have := hH L
        have h1 := choose_geom_le L (LMax + 1 - L) hx hx1
        have h2 : Real.sqrt ((LMax + 1 - L : ℕ) : ℝ) ≤ Real.sqrt (LMax + 1) := Real.sqrt_le_sqrt (by exact_mod_cast (by omega : LMax + 1 - L ≤ LMax + 1))
        have h3 : 0 ≤ 1 / (1 - d / R) ^ (L + 1) := by have : 0 < 1 - d / R := by linarith
                                                      positivity
        have h4 := h1.trans (mul_le_mul_of_nonneg_right h2 h3)
        gcongr
    _ = Real.sqrt (2 * LMax + 1) * Real.sqrt (LMax + 1) * (K * (1 / (R - d) ^ (L + 1)) * harmMax L) := by
        have e1 : 1 / R ^ (L + 1) * (1 / (1 - d / R) ^ (L + 1)) = 1 / (R - d) ^ (L + 1) := by
          rw [div_mul_div_comm, one_mul, ← mul_pow, mul_sub, mul_one, mul_div_cancel₀ _ hR0.ne']
        rw [← e1]; ring
    _ ≤ _ := mul_le_mul_of_nonneg_right (sqrt_two LMax) (by have := hH L; positivity)

theorem grossCross_le {LMax : ℕ} {w : ℕ → ℤ → ℝ} {K r d : ℝ} (hK : 0 ≤ K) (hr : 0 ≤ r) (hd : r < d) {L : ℕ}
    (hw : ∀ (l : ℕ) (m : ℤ), l ≤ LMax → m.natAbs ≤ l → w l m ≤ K * r ^ l * harmMax l) (M : ℤ) :
    grossCross LMax w d L M ≤ (2 * LMax + 1) * (K * (1 / (d - r) ^ (L + 1)) * harmMax L) := by
  have hH := harmMax_nonneg
  have hd0 : 0 < d := by linarith
  have hRd : 0 < d - r := by linarith
  have hx : 0 ≤ r / d := by positivity
  have hx1 : r / d < 1 := by rw [div_lt_one hd0]; exact hd
  calc grossCross LMax w d L M ≤ ∑ l ∈ Finset.range (LMax + 1), Real.sqrt (2 * LMax + 1) * (crossFac L l d * harmMax (L + l) * (K * r ^ l * harmMax l)) := by
        refine Finset.sum_le_sum fun l hl => ?_
        rw [Finset.mem_range] at hl
        exact orders_le l LMax (by omega) (crossFac_nonneg L l hd0.le) (hH _) (by have := hH l; positivity) _ (cg_sq_sum_le' l (L + l : ℕ) L M) _ (fun m hm => hw l m (by omega) hm)
    _ = Real.sqrt (2 * LMax + 1) * (K * harmMax L * (1 / d ^ (L + 1)) * ∑ j ∈ Finset.range (LMax + 1), Real.sqrt ((2 * j + (2 * L + 1)).choose (2 * L + 1)) * (r / d) ^ j) := by
        rw [Finset.mul_sum, Finset.mul_sum]
        refine Finset.sum_congr rfl fun j hj => ?_
        have := crossFac_harm (L := L) (l := j) d
        have e1 : (1 / d ^ (L + 1)) * (r / d) ^ j = r ^ j / d ^ (L + j + 1) := by
          rw [div_pow, show L + j + 1 = L + 1 + j by ring, pow_add d (L + 1) j]; field_simp
        congr 1
        rw [div_eq_mul_inv] at this e1
        linear_combination (K * r ^ j) * this - (K * harmMax L * Real.sqrt ((2 * j + (2 * L + 1)).choose (2 * L + 1))) * e1
    _ ≤ Real.sqrt (2 * LMax + 1) * (K * harmMax L * (1 / d ^ (L + 1)) * (Real.sqrt (LMax + 1) * (1 / (1 - r / d) ^ (L + 1)))) := by
        have := hH L
        have h1 := choose_geom_le L (LMax + 1) hx hx1
        push_cast at h1
        gcongr
    _ = Real.sqrt (2 * LMax + 1) * Real.sqrt (LMax + 1) * (K * (1 / (d - r) ^ (L + 1)) * harmMax L) := by
        have e1 : 1 / d ^ (L + 1) * (1 / (1 - r / d) ^ (L + 1)) = 1 / (d - r) ^ (L + 1) := by
          rw [div_mul_div_comm, one_mul, ← mul_pow, mul_sub, mul_one, mul_div_cancel₀ _ hd0.ne']
        rw [← e1]; ring
    _ ≤ _ := mul_le_mul_of_nonneg_right (sqrt_two LMax) (by have := hH L; positivity)

end Newt
