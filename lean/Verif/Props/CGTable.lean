import Verif.Proofs.CGOrtho

/-!
# C103: the Clebsch-Gordan coefficients are an orthogonal change of basis
-/

namespace Newt

open Spec

/-- C103: ladder relation (lowering), for all integer arguments. -/
theorem C103_lower (j1 j2 m1 m2 J M : ℤ) :
    Real.sqrt ((J + M) * (J - M + 1)) * cgCoeff j1 j2 m1 m2 J (M - 1) =
      Real.sqrt ((j1 - m1) * (j1 + m1 + 1)) * cgCoeff j1 j2 (m1 + 1) m2 J M +
      Real.sqrt ((j2 - m2) * (j2 + m2 + 1)) * cgCoeff j1 j2 m1 (m2 + 1) J M := by
  exact_mod_cast cg_lower j1 j2 m1 m2 J M

/-- C103: ladder relation (raising), for all integer arguments. -/
theorem C103_raise (j1 j2 m1 m2 J M : ℤ) :
    Real.sqrt ((J - M) * (J + M + 1)) * cgCoeff j1 j2 m1 m2 J (M + 1) =
      Real.sqrt ((j1 + m1) * (j1 - m1 + 1)) * cgCoeff j1 j2 (m1 - 1) m2 J M +
      Real.sqrt ((j2 + m2) * (j2 - m2 + 1)) * cgCoeff j1 j2 m1 (m2 - 1) J M := by
  exact_mod_cast cg_raise j1 j2 m1 m2 J M

theorem sum_single_order (j1 j2 J J' M M' m1 : ℤ) :
    ∑ m2 ∈ Finset.Icc (-j2) j2, cgCoeff j1 j2 m1 m2 J M * cgCoeff j1 j2 m1 m2 J' M' =
      cgCoeff j1 j2 m1 (M - m1) J M * cgCoeff j1 j2 m1 (M - m1) J' M' := by
  by_cases h : M - m1 ∈ Finset.Icc (-j2) j2
  · rw [Finset.sum_eq_single_of_mem _ h]
    intro m2 _ hm2
    rw [cgCoeff_invalid (fun hv => hm2 (by have := hv.2.2.2.2.2; omega)), zero_mul]
  · rw [cgCoeff_invalid (m2 := M - m1) (fun hv => h (Finset.mem_Icc.2 (abs_le.1 hv.2.1))), zero_mul]
    refine Finset.sum_eq_zero fun m2 hm2 => ?_
    rw [cgCoeff_invalid, zero_mul]
    intro hv
    have := hv.2.2.2.2.2
    exact h (by rw [show M - m1 = m2 by omega]; exact hm2)

/-- C103: the coefficients of `|J M>` and `|J' M'>` are orthonormal. -/
theorem C103_orthonormal (j1 j2 J M J' M' : ℤ) (h1 : |j1 - j2| ≤ J) (h2 : J ≤ j1 + j2) (h3 : |M| ≤ J) :
    ∑ m1 ∈ Finset.Icc (-j1) j1, ∑ m2 ∈ Finset.Icc (-j2) j2, cgCoeff j1 j2 m1 m2 J M * cgCoeff j1 j2 m1 m2 J' M' =
      if J = J' ∧ M = M' then 1 else 0 := by
  simp only [sum_single_order]
  by_cases hM : M = M'
  swap
  · rw [if_neg (fun h => hM h.2)]
    refine Finset.sum_eq_zero fun m _ => ?_
    rw [cgCoeff_invalid (J := J') (M := M') (fun h => hM (by have := h.2.2.2.2.2; omega)), mul_zero]
  subst hM
  by_cases hJ : J = J'
  · subst hJ
    rw [if_pos ⟨rfl, rfl⟩]
    exact (cgIp_top j1 j2 J M h3).trans (cgIp_norm_top j1 j2 J h1 h2)
  · rw [if_neg (fun h => hJ h.1)]
    exact cgIp_ne j1 j2 J J' M hJ

/-- C103: the coefficients are complete. -/
theorem C103_complete (j1 j2 m1 m2 m1' m2' : ℤ) (h1 : |m1| ≤ j1) (h2 : |m2| ≤ j2) :
    ∑ J ∈ Finset.Icc |j1 - j2| (j1 + j2), ∑ M ∈ Finset.Icc (-J) J, cgCoeff j1 j2 m1 m2 J M * cgCoeff j1 j2 m1' m2' J M =
      if m1 = m1' ∧ m2 = m2' then 1 else 0 := by
  classical
  have a1 := abs_le.1 h1
  have a2 := abs_le.1 h2
  set M := m1 + m2 with hM
  -- the sum over M has one term
  have hin : ∀ J ∈ Finset.Icc |j1 - j2| (j1 + j2), ∑ M' ∈ Finset.Icc (-J) J, cgCoeff j1 j2 m1 m2 J M' * cgCoeff j1 j2 m1' m2' J M' =
      cgCoeff j1 j2 m1 m2 J M * cgCoeff j1 j2 m1' m2' J M := by
    intro J _
    by_cases h : M ∈ Finset.Icc (-J) J
    · rw [Finset.sum_eq_single_of_mem _ h]
      intro M' _ hne
      rw [cgCoeff_invalid (fun hv => hne hv.2.2.2.2.2), zero_mul]
    · rw [cgCoeff_invalid (M := M) (fun hv => h (Finset.mem_Icc.2 (abs_le.1 hv.2.2.1))), zero_mul]
      refine Finset.sum_eq_zero fun M' hM' => ?_
      rw [cgCoeff_invalid, zero_mul]
      intro hv
      exact h (by rw [hM, ← hv.2.2.2.2.2]; exact hM')
  rw [Finset.sum_congr rfl hin]
  by_cases hm : |m1'| ≤ j1 ∧ |m2'| ≤ j2 ∧ m1' + m2' = M
  swap
  · rw [if_neg]
    · refine Finset.sum_eq_zero fun J _ => ?_
      rw [cgCoeff_invalid (m1 := m1') (fun hv => hm ⟨hv.1, hv.2.1, hv.2.2.2.2.2.symm⟩), mul_zero]
    · rintro ⟨rfl, rfl⟩
      exact hm ⟨h1, h2, rfl⟩
  obtain ⟨b1, b2, b3⟩ := hm
  have b1' := abs_le.1 b1
  have b2' := abs_le.1 b2
  set s := Finset.Icc (max |j1 - j2| |M|) (j1 + j2) with hs
  set t := Finset.Icc (max (-j1) (M - j2)) (min j1 (M + j2)) with ht
  have hcard : Fintype.card s = Fintype.card t := by
    rw [Fintype.card_coe, Fintype.card_coe, hs, ht, Int.card_Icc, Int.card_Icc]
    rcases abs_cases (j1 - j2) with h | h <;> rcases abs_cases M with h' | h' <;> rw [h.1, h'.1] <;> omega
  let A : Matrix s t ℝ := fun J m => cgCoeff j1 j2 m (M - m) J M
  have hA : A * A.transpose = 1 := by
    ext J J'
    rw [Matrix.mul_apply, Matrix.one_apply]
    change ∑ m : t, cgCoeff j1 j2 m (M - m) J M * cgCoeff j1 j2 m (M - m) J' M = _
    have hJ := Finset.mem_Icc.1 J.2
    have hJ1 : |j1 - j2| ≤ (J : ℤ) := (le_max_left _ _).trans hJ.1
    have hJ2 : |M| ≤ (J : ℤ) := (le_max_right _ _).trans hJ.1
    have h := C103_orthonormal j1 j2 J M J' M hJ1 hJ.2 hJ2
    rw [Finset.sum_congr rfl fun m _ => sum_single_order j1 j2 J J' M M m] at h
    rw [Finset.sum_coe_sort t (fun m : ℤ => cgCoeff j1 j2 m (M - m) J M * cgCoeff j1 j2 m (M - m) J' M)]
    have e : (if J = J' then (1 : ℝ) else 0) = if (J : ℤ) = J' ∧ M = M then 1 else 0 := by
      simp only [and_true, Subtype.ext_iff]
    rw [e, ← h]
    apply Finset.sum_subset
    · intro x hx
      rw [ht, Finset.mem_Icc] at hx
      rw [Finset.mem_Icc]
      omega
    · intro x hx hx'
      rw [Finset.mem_Icc] at hx
      rw [cgCoeff_invalid, zero_mul]
      intro hv
      have := abs_le.1 hv.2.1
      exact hx' (Finset.mem_Icc.2 ⟨by omega, by omega⟩)
  have hA' : A.transpose * A = 1 := (Matrix.mul_eq_one_comm_of_equiv (Fintype.equivOfCardEq hcard)).1 hA
  have hmt : m1 ∈ t := Finset.mem_Icc.2 ⟨by omega, by omega⟩
  have hmt' : m1' ∈ t := Finset.mem_Icc.2 ⟨by omega, by omega⟩
  have h := congrFun (congrFun hA' ⟨m1, hmt⟩) ⟨m1', hmt'⟩
  rw [Matrix.mul_apply, Matrix.one_apply] at h
  change ∑ J : s, cgCoeff j1 j2 m1 (M - m1) J M * cgCoeff j1 j2 m1' (M - m1') J M = _ at h
  rw [Finset.sum_coe_sort s (fun J : ℤ => cgCoeff j1 j2 m1 (M - m1) J M * cgCoeff j1 j2 m1' (M - m1') J M),
    show M - m1 = m2 by omega, show M - m1' = m2' by omega] at h
  have e : (if m1 = m1' ∧ m2 = m2' then (1 : ℝ) else 0) = if (⟨m1, hmt⟩ : t) = ⟨m1', hmt'⟩ then 1 else 0 := by
    congr 1
    simp only [Subtype.mk.injEq, eq_iff_iff]
    constructor
    · exact fun h => h.1
    · exact fun h => ⟨h, by omega⟩
  rw [e, ← h]
  symm
  apply Finset.sum_subset
  · exact Finset.Icc_subset_Icc_left (le_max_left _ _)
  · intro J hJ hJ'
    rw [Finset.mem_Icc] at hJ
    rw [cgCoeff_invalid, zero_mul]
    intro hv
    exact hJ' (Finset.mem_Icc.2 ⟨max_le hJ.1 hv.2.2.1, hJ.2⟩)

/-- C103: no coefficient exceeds one in magnitude. -/
theorem C103_bounded (j1 j2 m1 m2 J M : ℤ) : |cgCoeff j1 j2 m1 m2 J M| ≤ 1 := by
  by_cases h : CGValid j1 j2 m1 m2 J M
  swap
  · rw [cgCoeff_invalid h]; simp
  obtain ⟨h1, h2, h3, h4, h5, h6⟩ := h
  have hs := C103_orthonormal j1 j2 J M J M h4 h5 h3
  rw [if_pos ⟨rfl, rfl⟩] at hs
  rw [← sq_le_one_iff_abs_le_one, sq, ← hs]
  refine le_trans ?_ (Finset.single_le_sum (f := fun m1 => ∑ m2 ∈ Finset.Icc (-j2) j2, cgCoeff j1 j2 m1 m2 J M * cgCoeff j1 j2 m1 m2 J M)
    (fun i _ => Finset.sum_nonneg fun k _ => mul_self_nonneg _) (Finset.mem_Icc.2 (abs_le.1 h1)))
  exact Finset.single_le_sum (f := fun m2 => cgCoeff j1 j2 m1 m2 J M * cgCoeff j1 j2 m1 m2 J M)
    (fun i _ => mul_self_nonneg _) (Finset.mem_Icc.2 (abs_le.1 h2))

/-- C103: exchanging the two angular momenta, for all integer arguments. -/
theorem C103_swap (j1 j2 m1 m2 J M : ℤ) :
    cgCoeff j2 j1 m2 m1 J M = (-1) ^ (j1 + j2 - J) * cgCoeff j1 j2 m1 m2 J M := by
  by_cases h : CGValid j1 j2 m1 m2 J M
  swap
  · rw [cgCoeff_invalid h, cgCoeff_invalid, mul_zero]
    rintro ⟨h1, h2, h3, h4, h5, h6⟩
    exact h ⟨h2, h1, h3, by rwa [abs_sub_comm], by omega, by omega⟩
  obtain ⟨h1, h2, h3, h4, h5, h6⟩ := h
  subst h6
  have hs : rSum j2 j1 J m2 m1 = (-1) ^ (j1 + j2 - J) * rSum j1 j2 J m1 m2 := by
    rw [rSum, rSum, Finset.mul_sum]
    refine Finset.sum_bij (fun k _ => j1 + j2 - J - k) (fun k hk => ?_) (fun x _ y _ h => by omega)
      (fun y hy => ⟨j1 + j2 - J - y, ?_, by omega⟩) fun k _ => ?_
    · rw [Finset.mem_Icc] at hk ⊢; omega
    · rw [Finset.mem_Icc] at hy ⊢; omega
    · simp only [rTerm]
      rw [show j1 - m1 - (j1 + j2 - J - k) = J - j2 - m1 + k by ring, show j2 + m2 - (j1 + j2 - J - k) = J - j1 + m2 + k by ring,
        show J - j2 + m1 + (j1 + j2 - J - k) = j1 + m1 - k by ring, show J - j1 - m2 + (j1 + j2 - J - k) = j2 - m2 - k by ring,
        show j1 + j2 - J - (j1 + j2 - J - k) = k by ring, show j2 + j1 - J - k = j1 + j2 - J - k by ring]
      have : (-1 : ℝ) ^ (j1 + j2 - J) * (-1) ^ (j1 + j2 - J - k) = (-1) ^ k := by
        rw [← zpow_add₀ (by norm_num : (-1 : ℝ) ≠ 0), show j1 + j2 - J + (j1 + j2 - J - k) = 2 * (j1 + j2 - J - k) + k by ring, zpow_add₀ (by norm_num), zpow_mul]
        norm_num
      rw [← this]; ring_nf
  rw [show m1 + m2 = m2 + m1 by ring, cgCoeff_rSum j2 j1 m2 m1 J (by rwa [abs_sub_comm]) (by omega), show m2 + m1 = m1 + m2 by ring,
    cgCoeff_rSum j1 j2 m1 m2 J h4 h5, hs]
  have : cgN j2 j1 J = cgN j1 j2 J := by
    rw [cgN, cgN, show J + j2 - j1 = J - j1 + j2 by ring, show J - j2 + j1 = J + j1 - j2 by ring, show j2 + j1 - J = j1 + j2 - J by ring,
      show j2 + j1 + J + 1 = j1 + j2 + J + 1 by ring]
    congr 2; ring
  rw [this]; ring

/-! ## The closed forms of the tests -/

theorem neg_one_add_two (a b : ℤ) : (-1 : ℝ) ^ (a + 2 * b) = (-1) ^ a := by
  rw [zpow_add₀ (by norm_num), zpow_mul]; norm_num

/-- C103: coupling to zero, for all integer arguments. -/
theorem C103_scalar (j1 j2 m1 m2 : ℤ) :
    cgCoeff j1 j2 m1 m2 0 0 =
      if j1 = j2 ∧ m1 = -m2 ∧ |m1| ≤ j1 then (-1) ^ (j1 - m1) / Real.sqrt (2 * j1 + 1) else 0 := by
  split_ifs with h
  · obtain ⟨rfl, hm, h3⟩ := h
    have hm2 : m2 = -m1 := by omega
    subst hm2
    have h4 := abs_le.1 h3
    have := C24_antistretched j1 j1 m1 (-m1) h3 (by rwa [abs_neg]) le_rfl (by simp)
    rw [sub_self, add_neg_cancel] at this
    rw [this, div_eq_mul_inv]
    congr 1
    rw [← Real.sqrt_inv]
    congr 1
    have e := fct_succ (2 * j1) (by omega)
    rw [e, show (2 * (0 : ℤ) + 1) = 0 + 1 by ring, fct_succ 0 le_rfl, fct_zero, show (0 : ℤ) + 0 = 0 by ring, show (0 : ℤ) - 0 = 0 by ring, fct_zero,
      show j1 + -m1 = j1 - m1 by ring, show j1 - -m1 = j1 + m1 by ring]
    have p1 := fct_ne_zero (2 * j1)
    have p2 := fct_ne_zero (j1 - m1)
    have p3 := fct_ne_zero (j1 + m1)
    have p4 : (2 * (j1 : ℝ) + 1) ≠ 0 := by
      have : (0 : ℝ) ≤ j1 := by exact_mod_cast (by omega : (0 : ℤ) ≤ j1)
      positivity
    push_cast
    field_simp
    norm_num
  · rw [cgCoeff_invalid]
    rintro ⟨h1, h2, h3, h4, h5, h6⟩
    have := abs_le.1 h4
    exact h ⟨by omega, by omega, h1⟩

/-- C103: the state of highest weight. -/
theorem C103_highest (j1 j2 : ℤ) (h1 : 0 ≤ j1) (h2 : 0 ≤ j2) : cgCoeff j1 j2 j1 j2 (j1 + j2) (j1 + j2) = 1 := by
  rw [C24_stretched j1 j2 j1 j2 (by rw [abs_of_nonneg h1]) (by rw [abs_of_nonneg h2])]
  rw [show j1 + j2 + (j1 + j2) = 2 * (j1 + j2) by ring, sub_self, sub_self, sub_self, fct_zero, show j1 + j1 = 2 * j1 by ring,
    show j2 + j2 = 2 * j2 by ring]
  have p1 := fct_ne_zero (2 * j1)
  have p2 := fct_ne_zero (2 * j2)
  have p3 := fct_ne_zero (2 * (j1 + j2))
  rw [Real.sqrt_eq_one]
  field_simp

/-- C103: `J = 2 j`, `M = 0`. -/
theorem C103_double (j m : ℤ) (h : |m| ≤ j) :
    cgCoeff j j m (-m) (2 * j) 0 = fct (2 * j) ^ 2 / (fct (j - m) * fct (j + m) * Real.sqrt (fct (4 * j))) := by
  have := C24_stretched j j m (-m) h (by rwa [abs_neg])
  rw [add_neg_cancel, show j + j = 2 * j by ring] at this
  rw [this]
  have p0 := fct_pos (2 * j)
  have p1 := fct_pos (j - m)
  have p2 := fct_pos (j + m)
  have p3 := fct_pos (4 * j)
  rw [show 2 * (2 * j) = 4 * j by ring, add_zero, sub_zero, show j + -m = j - m by ring, show j - -m = j + m by ring]
  rw [show fct (2 * j) * fct (2 * j) / fct (4 * j) * (fct (2 * j) * fct (2 * j) / (fct (j + m) * fct (j - m) * (fct (j - m) * fct (j + m)))) =
      (fct (2 * j) ^ 2 / (fct (j - m) * fct (j + m))) ^ 2 / fct (4 * j) by field_simp, Real.sqrt_div (sq_nonneg _),
    Real.sqrt_sq (by positivity), div_div]

/-- C103: the coefficients needed to translate inner to outer moments. -/
theorem C103_q2Q (L l m : ℤ) (h1 : |m| ≤ L) (h2 : |m| ≤ l) :
    cgCoeff (L + l) l 0 (-m) L (-m) = (-1) ^ (l - m) * fct (L + l) *
      Real.sqrt (fct (2 * l) * fct (2 * L + 1) / (fct (2 * (L + l) + 1) * fct (l + m) * fct (l - m) * fct (L + m) * fct (L - m))) := by
  have a1 := abs_le.1 h1
  have a2 := abs_le.1 h2
  have hJ : L + l - l = L := by ring
  have h := C24_antistretched l (L + l) (-m) 0 (by rwa [abs_neg]) (by simp; omega) (by omega) (by rw [hJ, add_zero, abs_neg]; exact h1)
  rw [hJ, add_zero] at h
  rw [C103_swap l (L + l) (-m) 0 L (-m), h, show l + (L + l) - L = 0 + 2 * l by ring, neg_one_add_two, zpow_zero, one_mul,
    show l - -m = l - m + 2 * m by ring, neg_one_add_two, mul_assoc ((-1 : ℝ) ^ (l - m))]
  congr 1
  have p0 := fct_pos (L + l)
  rw [← Real.sqrt_sq p0.le, ← Real.sqrt_mul (sq_nonneg _)]
  congr 1
  rw [add_zero, sub_zero, show l + -m = l - m by ring, show l - m + 2 * m = l + m by ring, show L + -m = L - m by ring, show L - -m = L + m by ring]
  have p1 := fct_ne_zero (L - m)
  have p2 := fct_ne_zero (L + m)
  have p3 := fct_ne_zero (l - m)
  have p4 := fct_ne_zero (l + m)
  have p5 := fct_ne_zero (2 * (L + l) + 1)
  field_simp

/-- C103: the coefficients needed to translate outer moments. -/
theorem C103_Qlmb (L l m : ℤ) (h1 : |m| ≤ L) (h2 : L ≤ l) :
    cgCoeff l (l - L) m 0 L m = (-1) ^ (l - L) / fct (l - L) *
      Real.sqrt (fct (l + m) * fct (l - m) * fct (2 * (l - L)) * fct (2 * L + 1) / (fct (2 * l + 1) * fct (L + m) * fct (L - m))) := by
  have a1 := abs_le.1 h1
  have hJ : l - (l - L) = L := by ring
  have h := C24_antistretched (l - L) l 0 m (by simp; omega) (abs_le.2 ⟨by omega, by omega⟩) (by omega)
    (by rw [hJ, zero_add]; exact h1)
  rw [hJ, zero_add] at h
  rw [C103_swap (l - L) l 0 m L m, h, show l - L + l - L = 0 + 2 * (l - L) by ring, neg_one_add_two, zpow_zero, one_mul, sub_zero,
    div_eq_mul_inv ((-1 : ℝ) ^ (l - L)), mul_assoc ((-1 : ℝ) ^ (l - L))]
  congr 1
  have p0 := fct_pos (l - L)
  rw [← Real.sqrt_sq (inv_nonneg.2 p0.le), ← Real.sqrt_mul (sq_nonneg _)]
  congr 1
  rw [add_zero]
  have p1 := fct_ne_zero (L - m)
  have p2 := fct_ne_zero (L + m)
  have p5 := fct_ne_zero (2 * l + 1)
  field_simp

/-- C103: the coefficients needed to translate inner moments. -/
theorem C103_qlm (L l m : ℤ) (h1 : |m| ≤ l) (h2 : l ≤ L) :
    cgCoeff (L - l) l 0 m L m = 1 / fct (L - l) *
      Real.sqrt (fct (L + m) * fct (L - m) * fct (2 * (L - l)) * fct (2 * l) / (fct (2 * L) * fct (l + m) * fct (l - m))) := by
  have h := C24_stretched (L - l) l 0 m (by simp; omega) h1
  rw [sub_add_cancel, zero_add] at h
  rw [h]
  have p0 := fct_pos (L - l)
  rw [← Real.sqrt_sq (div_nonneg zero_le_one p0.le : (0 : ℝ) ≤ 1 / fct (L - l)), ← Real.sqrt_mul (sq_nonneg _)]
  congr 1
  rw [add_zero, sub_zero]
  have p1 := fct_ne_zero (l - m)
  have p2 := fct_ne_zero (l + m)
  have p5 := fct_ne_zero (2 * L)
  field_simp

/-- `1/2 + 1/3 + 1/6 = 1`: the squares for `m1 = 1`, `m2 = -1` add up over `J = 0, 1, 2`. -/
example : ∑ J ∈ Finset.Icc (0 : ℤ) 2, ∑ M ∈ Finset.Icc (-J) J, cgCoeff 1 1 1 (-1) J M * cgCoeff 1 1 1 (-1) J M = 1 := by
  have := C103_complete 1 1 1 (-1) 1 (-1) (by norm_num) (by norm_num)
  norm_num at this
  exact this

/-- Different `J` at the same `M` are orthogonal. -/
example : ∑ m1 ∈ Finset.Icc (-2 : ℤ) 2, ∑ m2 ∈ Finset.Icc (-1 : ℤ) 1, cgCoeff 2 1 m1 m2 3 1 * cgCoeff 2 1 m1 m2 1 1 = 0 := by
  have := C103_orthonormal 2 1 3 1 1 1 (by norm_num) (by norm_num) (by norm_num)
  norm_num at this
  exact this

/-- `<2 1; 0 0 | 1 0> = -sqrt(2/5)`. -/
example : cgCoeff 2 1 0 0 1 0 = -Real.sqrt (2 / 5) := by
  have h := C103_Qlmb 1 2 0 (by norm_num) (by norm_num)
  have e1 : fct 1 = 1 := by norm_num [fct]
  have e2 : fct 2 = 2 := by norm_num [fct, show Int.toNat 2 = 2 from rfl, Nat.factorial]
  have e3 : fct 3 = 6 := by norm_num [fct, show Int.toNat 3 = 3 from rfl, Nat.factorial]
  have e5 : fct 5 = 120 := by norm_num [fct, show Int.toNat 5 = 5 from rfl, Nat.factorial]
  rw [show (2 : ℤ) - 1 = 1 by norm_num, show (2 : ℤ) + 0 = 2 by norm_num, show (2 : ℤ) - 0 = 2 by norm_num, show (2 : ℤ) * 1 = 2 by norm_num,
    show (2 : ℤ) + 1 = 3 by norm_num, show (2 : ℤ) * 2 + 1 = 5 by norm_num, show (1 : ℤ) + 0 = 1 by norm_num,
    show (1 : ℤ) - 0 = 1 by norm_num, e1, e2, e3, e5] at h
  rw [h, show (2 : ℝ) * 2 * 2 * 6 / (120 * 1 * 1) = 2 / 5 by norm_num, zpow_one]
  ring

end Newt
