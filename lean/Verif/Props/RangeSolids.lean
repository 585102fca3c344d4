import Verif.Proofs.RangeSolids
import Verif.Props.Range

/-!
# C124: the degrees the closed-form solids and the force can reach
-/

namespace Newt

open Spec

/-- C124: the factor `sqrt((l+m)! (l-m)!)` of the closed-form solids is finite exactly if the product of factorials is representable, and then it
is the root. -/
theorem C124_lmfac (l m : ℤ) (hm : |m| ≤ l) :
    (Rng.IsFin (Rng.lmfac l m) ↔ fct (l + m) * fct (l - m) < Rng.OVER) ∧
    (fct (l + m) * fct (l - m) < Rng.OVER → Rng.lmfac l m = .fin (Real.sqrt (fct (l + m) * fct (l - m)))) := by
  have am := abs_le.1 hm
  refine Rng.root_exp _ _ ?_ ?_
  · rw [Real.exp_add, exp_gammaln _ (l + m) (by omega) (by push_cast; ring), exp_gammaln _ (l - m) (by omega) (by push_cast; ring)]
  · exact one_le_mul_of_one_le_of_one_le (Rng.one_le_fct _) (Rng.one_le_fct _)

/-- C124: over all orders of a degree the factor is finite exactly up to degree 85. -/
theorem C124_lmfac_all (l : ℕ) : (∀ m : ℤ, |m| ≤ l → Rng.IsFin (Rng.lmfac l m)) ↔ l ≤ 85 := by
  constructor
  · intro h
    have h1 := (C124_lmfac l l (by rw [abs_of_nonneg (by omega)])).1.1 (h l (by rw [abs_of_nonneg (by omega)]))
    rw [show ((l : ℤ) - l) = 0 by ring, fct_zero, mul_one, Rng.fct_lt] at h1
    omega
  · intro h m hm
    have am := abs_le.1 hm
    refine (C124_lmfac l m hm).1.2 ?_
    exact lt_of_le_of_lt (Rng.fct_split (c := 170) (by omega) (by omega) (by omega)) Rng.fct170

/-- C124: where the product of factorials is not representable, the entries of order `m` and `-m` a closed-form solid assigns have neither a finite
real part nor a finite imaginary part, whatever the dimensions, the mass and the sums. -/
theorem C124_solids (s : Rng.Solid) (b : Rng.Before) (l m : ℕ) (h : s.assigns l m) (ho : Rng.OVER ≤ fct (l + m) * fct (l - m)) :
    (s.entry b l m).Bad ∧ (s.entry b l (-m)).Bad := by
  have hf : ¬ Rng.IsFin (Rng.lmfac l m) := by
    intro k
    exact absurd ((C124_lmfac l m (by rw [abs_of_nonneg (by omega)]; exact_mod_cast h.1)).1.1 k) (not_lt.2 ho)
  have hp : ¬ Rng.IsFin (Rng.mul (b.fac l) (Rng.lmfac l m)) := fun k => hf (Rng.mul_isFin k).2
  have h2 : ¬ Rng.IsFin (s.fac2 b l m).re := by
    cases s <;> simp only [Rng.Solid.fac2, Rng.CV.ofReal]
    case tri_prism => exact fun k => hp (Rng.div_isFin k)
    case tetrahedron => exact hp
    case tetrahedron2 => exact hp
    case pyramid => exact hp
    all_goals exact (Rng.cmul_bad (Or.inl hp)).1
  have hc : (s.cell b l (m : ℤ)).Bad := by
    have e : (Rng.cmul (b.S l m) (s.fac2 b l m)).Bad := Rng.cmul_bad (Or.inr h2)
    have c : (0 : ℤ) ≤ (m : ℤ) ∧ s.assigns l ((m : ℤ)).toNat := ⟨by omega, by rwa [Int.toNat_natCast]⟩
    cases s <;> simp only [Rng.Solid.cell] <;> rw [if_pos c, Int.toNat_natCast]
    case annulus => exact Rng.cdivr_bad _ e
    all_goals exact e
  have hcc : ¬ Rng.IsFin (Rng.cconj (s.cell b l (m : ℤ))).re := hc.1
  constructor
  · rw [Rng.Solid.entry]
    split_ifs
    · exact Rng.cdivr_bad _ (Rng.cadd_bad (Or.inl hc))
    · exact Rng.cadd_bad (Or.inl hc)
  · rw [Rng.Solid.entry, neg_neg]
    split_ifs
    · exact Rng.cdivr_bad _ (Rng.cadd_bad (Or.inr (Rng.cmul_bad (Or.inl hcc))))
    · exact Rng.cadd_bad (Or.inr (Rng.cmul_bad (Or.inl hcc)))

/-- C124: in particular the entries of the highest order of every even degree from 86 on, for every solid but the N-gon; for the N-gon those of the
degrees that are multiples of N. -/
theorem C124_solids_top (s : Rng.Solid) (b : Rng.Before) (l : ℕ) (h : 86 ≤ l) (h2 : l % 2 = 0)
    (hN : ∀ N, s = .ngon_prism N → N ∣ l) : (s.entry b l l).Bad ∧ (s.entry b l (-l)).Bad := by
  refine C124_solids s b l l ⟨le_rfl, ?_⟩ ?_
  · cases s <;> simp only [Nat.sub_self, Nat.zero_mod, h2, and_self]
    exact ⟨hN _ rfl, trivial⟩
  · rw [show ((l : ℤ) - l) = 0 by ring, fct_zero, mul_one]
    exact Rng.fct171.trans (Rng.fct_mono (by omega))

/-- C124: the ratio of factorials in `multipole_force`, for all the indices of its loops: finite exactly if representable, and then the root. -/
theorem C124_forceRoot (lo mo l m : ℤ) (h1 : |mo| ≤ lo) (h2 : lo ≤ l) (h3 : |m - mo| ≤ l - lo) :
    (Rng.IsFin (Rng.forceRoot lo mo l m) ↔ fct (l + m) * fct (l - m) / (fct (lo + mo) * fct (lo - mo)) < Rng.OVER) ∧
    (fct (l + m) * fct (l - m) / (fct (lo + mo) * fct (lo - mo)) < Rng.OVER →
      Rng.forceRoot lo mo l m = .fin (Real.sqrt (fct (l + m) * fct (l - m) / (fct (lo + mo) * fct (lo - mo))))) := by
  have a1 := abs_le.1 h1
  have a3 := abs_le.1 h3
  refine Rng.root_exp _ _ ?_ ?_
  · rw [Real.exp_sub, Real.exp_add, Real.exp_add, exp_gammaln _ (l + m) (by omega) (by push_cast; ring),
      exp_gammaln _ (l - m) (by omega) (by push_cast; ring), exp_gammaln _ (lo + mo) (by omega) (by push_cast; ring),
      exp_gammaln _ (lo - mo) (by omega) (by push_cast; ring)]
  · rw [one_le_div (mul_pos (fct_pos _) (fct_pos _))]
    exact mul_le_mul (Rng.fct_mono (by omega)) (Rng.fct_mono (by omega)) (fct_pos _).le (fct_pos _).le

/-- C124: every root `multipole_force` takes is finite exactly up to degree 85. -/
theorem C124_forceRoot_all (LMax : ℕ) : (∀ lo mo l m : ℤ, |mo| ≤ lo → lo ≤ l → l ≤ LMax → |m - mo| ≤ l - lo →
    Rng.IsFin (Rng.forceRoot lo mo l m)) ↔ LMax ≤ 85 := by
  constructor
  · intro h
    have h0 := (C124_forceRoot 0 0 LMax LMax (by simp) (by omega) (by simp only [sub_zero]; rw [abs_of_nonneg (by omega)])).1.1
      (h 0 0 LMax LMax (by simp) (by omega) le_rfl (by simp only [sub_zero]; rw [abs_of_nonneg (by omega)]))
    rw [show ((LMax : ℤ) - LMax) = 0 by ring, add_zero, sub_zero, fct_zero, mul_one, mul_one, div_one, Rng.fct_lt] at h0
    omega
  · intro h lo mo l m h1 h2 h3 h4
    refine (C124_forceRoot lo mo l m h1 h2 h4).1.2 ?_
    have a1 := abs_le.1 h1
    have a4 := abs_le.1 h4
    refine lt_of_le_of_lt (div_le_self (mul_pos (fct_pos _) (fct_pos _)).le
      (one_le_mul_of_one_le_of_one_le (Rng.one_le_fct _) (Rng.one_le_fct _))) ?_
    exact lt_of_le_of_lt (Rng.fct_split (c := 170) (by omega) (by omega) (by omega)) Rng.fct170

/-- C124: called with moments of degree 86 or more, `multipole_force` returns no finite component, whatever the moments and the place. -/
theorem C124_force_overflow (LMax : ℕ) (h : 86 ≤ LMax) (fac : Rng.FV) (q Q b : ℤ → ℤ → Rng.CV) :
    (Rng.multipole_force LMax fac q Q b).Bad := by
  rw [Rng.multipole_force]
  refine Rng.foldl_bad _ _ (Or.inr ⟨Rng.forceTerm fac q Q b 0 0 LMax LMax, ?_, ?_⟩)
  · simp only [List.mem_flatMap, List.mem_map, Rng.mem_irange]
    exact ⟨0, ⟨le_rfl, by omega⟩, 0, ⟨by omega, by omega⟩, LMax, ⟨by omega, le_rfl⟩, LMax, ⟨by omega, by omega⟩, rfl⟩
  · have hr : ¬ Rng.IsFin (Rng.forceRoot 0 0 LMax LMax) := by
      intro k
      have := (C124_forceRoot 0 0 LMax LMax (by simp) (by omega) (by simp only [sub_zero]; rw [abs_of_nonneg (by omega)])).1.1 k
      rw [show ((LMax : ℤ) - LMax) = 0 by ring, add_zero, sub_zero, fct_zero, mul_one, mul_one, div_one, Rng.fct_lt] at this
      omega
    simp only [Rng.forceTerm]
    exact Rng.cmul_bad (Or.inl (Rng.cmul_bad (Or.inr hr)).1)

/-! ## cases -/

/-- The hypotheses are met: an annulus at degree 86 and a hexagonal prism at degree 90, for any dimensions. -/
example (b : Rng.Before) : (Rng.Solid.annulus.entry b 86 86).Bad ∧ ((Rng.Solid.ngon_prism 6).entry b 90 (-90)).Bad := by
  refine ⟨(C124_solids_top .annulus b 86 le_rfl rfl fun N h => by cases h).1,
    (C124_solids_top (.ngon_prism 6) b 90 (by norm_num) rfl fun N h => ?_).2⟩
  cases h
  norm_num

/-- Below the limit the factor is right: degree 85. -/
example : Rng.lmfac 85 85 = .fin (Real.sqrt (fct 170)) := by
  have := (C124_lmfac 85 85 (by norm_num)).2 (by norm_num only; rw [fct_zero, mul_one]; exact Rng.fct170)
  norm_num only at this
  rwa [fct_zero, mul_one] at this

end Newt
