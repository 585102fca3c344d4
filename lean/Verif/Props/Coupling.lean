import Verif.Proofs.WignerDeriv
import Verif.Props.CGTable
import Verif.Props.Rotations

/-!
# C105: the Clebsch-Gordan table and the Wigner matrices belong together
-/

namespace Newt

open Spec

theorem bigD_couple (j1 j2 J : ℕ) (alpha beta gamma : ℝ) (b1 b2 M : ℤ) (hb1 : b1.natAbs ≤ j1) (hb2 : b2.natAbs ≤ j2)
    (hM : M.natAbs ≤ J) :
    ∑ a1 ∈ Finset.Icc (-(j1 : ℤ)) j1, ∑ a2 ∈ Finset.Icc (-(j2 : ℤ)) j2,
        (cgCoeff j1 j2 a1 a2 J M : ℂ) * (bigD j1 alpha beta gamma a1 b1 * bigD j2 alpha beta gamma a2 b2) =
      ∑ N ∈ Finset.Icc (-(J : ℤ)) J, bigD J alpha beta gamma M N * (cgCoeff j1 j2 b1 b2 J N : ℂ) := by
  have h := cp_eq j1 j2 J b1 b2 hb1 hb2 M hM beta
  have h' := congrArg (fun x : ℝ => Complex.exp (-Complex.I * M * alpha) * (x : ℂ) * Complex.exp (-Complex.I * (b1 + b2 : ℤ) * gamma)) h
  simp only [cpF, cpG, Complex.ofReal_sum, Finset.mul_sum, Finset.sum_mul] at h'
  convert h' using 1
  · refine Finset.sum_congr rfl fun a1 _ => Finset.sum_congr rfl fun a2 _ => ?_
    by_cases hv : CGValid j1 j2 a1 a2 J M
    · have hm := hv.2.2.2.2.2
      have e1 : Complex.exp (-Complex.I * M * alpha) = Complex.exp (-Complex.I * a1 * alpha) * Complex.exp (-Complex.I * a2 * alpha) := by
        rw [← Complex.exp_add, hm]; congr 1; push_cast; ring
      have e2 : Complex.exp (-Complex.I * (b1 + b2 : ℤ) * gamma) = Complex.exp (-Complex.I * b1 * gamma) * Complex.exp (-Complex.I * b2 * gamma) := by
        rw [← Complex.exp_add]; congr 1; push_cast; ring
      rw [e1, e2, bigD, bigD]; push_cast; ring
    · rw [cgCoeff_invalid hv]; simp
  · refine Finset.sum_congr rfl fun N _ => ?_
    by_cases hv : CGValid j1 j2 b1 b2 J N
    · have hm := hv.2.2.2.2.2
      rw [bigD, hm]; push_cast; ring
    · rw [cgCoeff_invalid hv]; simp

theorem bigD_series (j1 j2 : ℕ) (alpha beta gamma : ℝ) (a1 a2 b1 b2 : ℤ) (ha1 : a1.natAbs ≤ j1) (ha2 : a2.natAbs ≤ j2)
    (hb1 : b1.natAbs ≤ j1) (hb2 : b2.natAbs ≤ j2) :
    bigD j1 alpha beta gamma a1 b1 * bigD j2 alpha beta gamma a2 b2 =
      ∑ J ∈ Finset.range (j1 + j2 + 1), ∑ M ∈ Finset.Icc (-(J : ℤ)) J, ∑ N ∈ Finset.Icc (-(J : ℤ)) J,
        (cgCoeff j1 j2 a1 a2 J M : ℂ) * (cgCoeff j1 j2 b1 b2 J N : ℂ) * bigD J alpha beta gamma M N := by
  have hJ : ∀ J : ℕ, ∑ M ∈ Finset.Icc (-(J : ℤ)) J, ∑ N ∈ Finset.Icc (-(J : ℤ)) J,
        (cgCoeff j1 j2 a1 a2 J M : ℂ) * (cgCoeff j1 j2 b1 b2 J N : ℂ) * bigD J alpha beta gamma M N =
      ∑ c1 ∈ Finset.Icc (-(j1 : ℤ)) j1, ∑ c2 ∈ Finset.Icc (-(j2 : ℤ)) j2,
        ((∑ M ∈ Finset.Icc (-(J : ℤ)) J, cgCoeff j1 j2 a1 a2 J M * cgCoeff j1 j2 c1 c2 J M : ℝ) : ℂ) *
          (bigD j1 alpha beta gamma c1 b1 * bigD j2 alpha beta gamma c2 b2) := by
    intro J
    have : ∀ M ∈ Finset.Icc (-(J : ℤ)) J, ∑ N ∈ Finset.Icc (-(J : ℤ)) J,
        (cgCoeff j1 j2 a1 a2 J M : ℂ) * (cgCoeff j1 j2 b1 b2 J N : ℂ) * bigD J alpha beta gamma M N =
        ∑ c1 ∈ Finset.Icc (-(j1 : ℤ)) j1, ∑ c2 ∈ Finset.Icc (-(j2 : ℤ)) j2,
        (cgCoeff j1 j2 a1 a2 J M : ℂ) * ((cgCoeff j1 j2 c1 c2 J M : ℂ) * (bigD j1 alpha beta gamma c1 b1 * bigD j2 alpha beta gamma c2 b2)) := by
      intro M hM
      rw [Finset.mem_Icc] at hM
      simp only [← Finset.mul_sum]
      rw [bigD_couple j1 j2 J alpha beta gamma b1 b2 M hb1 hb2 (by omega), Finset.mul_sum]
      exact Finset.sum_congr rfl fun N _ => by ring
    rw [Finset.sum_congr rfl this, Finset.sum_comm]
    refine Finset.sum_congr rfl fun c1 _ => ?_
    rw [Finset.sum_comm]
    refine Finset.sum_congr rfl fun c2 _ => ?_
    push_cast
    rw [Finset.sum_mul]
    exact Finset.sum_congr rfl fun M _ => by ring
  rw [Finset.sum_congr rfl fun J _ => hJ J, Finset.sum_comm]
  have hc : ∀ c1 c2 : ℤ, ∑ J ∈ Finset.range (j1 + j2 + 1), ∑ M ∈ Finset.Icc (-(J : ℤ)) J, cgCoeff j1 j2 a1 a2 J M * cgCoeff j1 j2 c1 c2 J M =
      if a1 = c1 ∧ a2 = c2 then 1 else 0 := by
    intro c1 c2
    rw [← C103_complete j1 j2 a1 a2 c1 c2 (abs_le.2 ⟨by omega, by omega⟩) (abs_le.2 ⟨by omega, by omega⟩)]
    symm
    have e : ∑ J ∈ Finset.range (j1 + j2 + 1), ∑ M ∈ Finset.Icc (-(J : ℤ)) J, cgCoeff j1 j2 a1 a2 J M * cgCoeff j1 j2 c1 c2 J M =
        ∑ J ∈ Finset.Icc (0 : ℤ) (j1 + j2), ∑ M ∈ Finset.Icc (-J) J, cgCoeff j1 j2 a1 a2 J M * cgCoeff j1 j2 c1 c2 J M := by
      refine Finset.sum_bij (fun J _ => (J : ℤ)) (fun J hJ => ?_) (fun x _ y _ h => by omega) (fun y hy => ⟨y.toNat, ?_, ?_⟩) fun _ _ => rfl
      · rw [Finset.mem_range] at hJ; rw [Finset.mem_Icc]; omega
      · rw [Finset.mem_Icc] at hy; rw [Finset.mem_range]; omega
      · rw [Finset.mem_Icc] at hy; omega
    rw [e]
    apply Finset.sum_subset (Finset.Icc_subset_Icc_left (abs_nonneg _))
    intro J hJ hJ'
    refine Finset.sum_eq_zero fun M _ => ?_
    rw [cgCoeff_invalid, zero_mul]
    intro hv
    exact hJ' (Finset.mem_Icc.2 ⟨hv.2.2.2.1, (Finset.mem_Icc.1 hJ).2⟩)
  symm
  rw [Finset.sum_eq_single_of_mem a1 (Finset.mem_Icc.2 ⟨by omega, by omega⟩), Finset.sum_comm,
    Finset.sum_eq_single_of_mem a2 (Finset.mem_Icc.2 ⟨by omega, by omega⟩), ← Finset.sum_mul, ← Complex.ofReal_sum, hc, if_pos ⟨rfl, rfl⟩]
  · simp
  · intro c2 _ hne
    rw [← Finset.sum_mul, ← Complex.ofReal_sum, hc, if_neg (fun h => hne h.2.symm)]; simp
  · intro c1 _ hne
    rw [Finset.sum_comm]
    refine Finset.sum_eq_zero fun c2 _ => ?_
    rw [← Finset.sum_mul, ← Complex.ofReal_sum, hc, if_neg (fun h => hne h.1.symm)]; simp

/-- C105: the Clebsch-Gordan coefficients of the library intertwine the Wigner matrices of the library: coupling after
rotating is rotating after coupling. -/
theorem C105_intertwine (L j1 j2 J : ℕ) (hL : 1 ≤ L) (h1 : j1 ≤ L) (h2 : j2 ≤ L) (hJ : J ≤ L) (alpha beta gamma : ℝ) :
    ∃ ds, wignerDl L alpha beta gamma = some ds ∧
      ∀ b1 b2 M : ℤ, b1.natAbs ≤ j1 → b2.natAbs ≤ j2 → M.natAbs ≤ J →
        ∑ a1 ∈ Finset.Icc (-(j1 : ℤ)) j1, ∑ a2 ∈ Finset.Icc (-(j2 : ℤ)) j2,
          (cgCoeff j1 j2 a1 a2 J M : ℂ) * (ds.getD j1 0 a1 b1 * ds.getD j2 0 a2 b2) =
        ∑ N ∈ Finset.Icc (-(J : ℤ)) J, ds.getD J 0 M N * (cgCoeff j1 j2 b1 b2 J N : ℂ) := by
  obtain ⟨ds, d1, -, d2⟩ := wignerDl_some L hL alpha beta gamma
  refine ⟨ds, d1, fun b1 b2 M hb1 hb2 hM => ?_⟩
  have e : ∑ a1 ∈ Finset.Icc (-(j1 : ℤ)) j1, ∑ a2 ∈ Finset.Icc (-(j2 : ℤ)) j2,
          (cgCoeff j1 j2 a1 a2 J M : ℂ) * (ds.getD j1 0 a1 b1 * ds.getD j2 0 a2 b2) =
      ∑ a1 ∈ Finset.Icc (-(j1 : ℤ)) j1, ∑ a2 ∈ Finset.Icc (-(j2 : ℤ)) j2,
        (cgCoeff j1 j2 a1 a2 J M : ℂ) * (bigD j1 alpha beta gamma a1 b1 * bigD j2 alpha beta gamma a2 b2) := by
    refine Finset.sum_congr rfl fun a1 ha1 => Finset.sum_congr rfl fun a2 ha2 => ?_
    rw [Finset.mem_Icc] at ha1 ha2
    rw [d2 j1 a1 b1 h1 (by omega) hb1, d2 j2 a2 b2 h2 (by omega) hb2]
  rw [e, bigD_couple j1 j2 J alpha beta gamma b1 b2 M hb1 hb2 hM]
  refine Finset.sum_congr rfl fun N hN => ?_
  rw [Finset.mem_Icc] at hN
  rw [d2 J M N hJ hM (by omega)]

/-- C105: the Clebsch-Gordan series: products of entries of two Wigner matrices of `wignerDl` in terms of those of the coupled
degrees. -/
theorem C105_series (L j1 j2 : ℕ) (hL : 1 ≤ L) (h : j1 + j2 ≤ L) (alpha beta gamma : ℝ) :
    ∃ ds, wignerDl L alpha beta gamma = some ds ∧
      ∀ a1 a2 b1 b2 : ℤ, a1.natAbs ≤ j1 → a2.natAbs ≤ j2 → b1.natAbs ≤ j1 → b2.natAbs ≤ j2 →
        ds.getD j1 0 a1 b1 * ds.getD j2 0 a2 b2 =
          ∑ J ∈ Finset.range (j1 + j2 + 1), ∑ M ∈ Finset.Icc (-(J : ℤ)) J, ∑ N ∈ Finset.Icc (-(J : ℤ)) J,
            (cgCoeff j1 j2 a1 a2 J M : ℂ) * (cgCoeff j1 j2 b1 b2 J N : ℂ) * ds.getD J 0 M N := by
  obtain ⟨ds, d1, -, d2⟩ := wignerDl_some L hL alpha beta gamma
  refine ⟨ds, d1, fun a1 a2 b1 b2 ha1 ha2 hb1 hb2 => ?_⟩
  rw [d2 j1 a1 b1 (by omega) ha1 hb1, d2 j2 a2 b2 (by omega) ha2 hb2, bigD_series j1 j2 alpha beta gamma a1 a2 b1 b2 ha1 ha2 hb1 hb2]
  refine Finset.sum_congr rfl fun J hJ => Finset.sum_congr rfl fun M hM => Finset.sum_congr rfl fun N hN => ?_
  rw [Finset.mem_range] at hJ
  rw [Finset.mem_Icc] at hM hN
  rw [d2 J M N (by omega) (by omega) (by omega)]

/-- The same for the explicit formula `Dl`, with no restriction to `L >= 1`. -/
theorem C105_series_Dl (j1 j2 : ℕ) (alpha beta gamma : ℝ) (a1 a2 b1 b2 : ℤ) (ha1 : a1.natAbs ≤ j1) (ha2 : a2.natAbs ≤ j2)
    (hb1 : b1.natAbs ≤ j1) (hb2 : b2.natAbs ≤ j2) :
    Dl j1 alpha beta gamma a1 b1 * Dl j2 alpha beta gamma a2 b2 =
      ∑ J ∈ Finset.range (j1 + j2 + 1), ∑ M ∈ Finset.Icc (-(J : ℤ)) J, ∑ N ∈ Finset.Icc (-(J : ℤ)) J,
        (cgCoeff j1 j2 a1 a2 J M : ℂ) * (cgCoeff j1 j2 b1 b2 J N : ℂ) * Dl J alpha beta gamma M N := by
  rw [Dl, Dl, Dlmn_eq j1 b1 a1 hb1 ha1, Dlmn_eq j2 b2 a2 hb2 ha2, bigD_series j1 j2 alpha beta gamma a1 a2 b1 b2 ha1 ha2 hb1 hb2]
  refine Finset.sum_congr rfl fun J hJ => Finset.sum_congr rfl fun M hM => Finset.sum_congr rfl fun N hN => ?_
  rw [Finset.mem_Icc] at hM hN
  rw [Dl, Dlmn_eq J N M (by omega) (by omega)]

/-- Degrees one and two couple to degrees up to three, so `wignerDl(3, ...)` suffices. -/
example (alpha beta gamma : ℝ) : ∃ ds, wignerDl 3 alpha beta gamma = some ds ∧
    ds.getD 1 0 1 0 * ds.getD 2 0 (-1) 2 =
      ∑ J ∈ Finset.range 4, ∑ M ∈ Finset.Icc (-(J : ℤ)) J, ∑ N ∈ Finset.Icc (-(J : ℤ)) J,
        (cgCoeff 1 2 1 (-1) J M : ℂ) * (cgCoeff 1 2 0 2 J N : ℂ) * ds.getD J 0 M N := by
  obtain ⟨ds, h1, h2⟩ := C105_series 3 1 2 (by norm_num) (by norm_num) alpha beta gamma
  exact ⟨ds, h1, h2 1 (-1) 0 2 (by norm_num) (by norm_num) (by norm_num) (by norm_num)⟩

end Newt
