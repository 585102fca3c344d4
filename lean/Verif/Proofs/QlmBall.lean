import Verif.Proofs.QlmClosed
import Verif.Proofs.WignerRot
import Verif.Proofs.TransRecurs3
import Mathlib.MeasureTheory.Measure.Lebesgue.Basic
import Mathlib.LinearAlgebra.Matrix.Determinant.Basic
import Mathlib.MeasureTheory.Measure.Haar.NormedSpace

/-! # Rotating space preserves volume; moments of a ball -/

namespace Newt

open MeasureTheory Finset Spec Qlm

noncomputable def rzM (t : ℝ) : Matrix (Fin 3) (Fin 3) ℝ :=
  !![Real.cos t, -Real.sin t, 0; Real.sin t, Real.cos t, 0; 0, 0, 1]

noncomputable def ryM (t : ℝ) : Matrix (Fin 3) (Fin 3) ℝ :=
  !![Real.cos t, 0, Real.sin t; 0, 1, 0; -Real.sin t, 0, Real.cos t]

theorem rz_toLin (t : ℝ) : (rz t : V3 → V3) = Matrix.toLin' (rzM t) := by
  funext v i
  fin_cases i <;> simp [rz, rzM, Matrix.toLin'_apply, Matrix.mulVec, dotProduct, Fin.sum_univ_three] <;> ring

theorem ry_toLin (t : ℝ) : (ry t : V3 → V3) = Matrix.toLin' (ryM t) := by
  funext v i
  fin_cases i <;> simp [ry, ryM, Matrix.toLin'_apply, Matrix.mulVec, dotProduct, Fin.sum_univ_three]

theorem rzM_det (t : ℝ) : (rzM t).det = 1 := by
  rw [rzM, Matrix.det_fin_three]; simp
  nlinarith [Real.sin_sq_add_cos_sq t]

theorem ryM_det (t : ℝ) : (ryM t).det = 1 := by
  rw [ryM, Matrix.det_fin_three]; simp
  nlinarith [Real.sin_sq_add_cos_sq t]

theorem mp_of_det (M : Matrix (Fin 3) (Fin 3) ℝ) (h : M.det = 1) :
    MeasurePreserving (Matrix.toLin' M : V3 → V3) volume volume := by
  refine ⟨(LinearMap.continuous_of_finiteDimensional _).measurable, ?_⟩
  have := Real.map_matrix_volume_pi_eq_smul_volume_pi (M := M) (by rw [h]; exact one_ne_zero)
  rw [this, h]; simp

theorem rz_mp (t : ℝ) : MeasurePreserving (rz t : V3 → V3) volume volume := by
  rw [rz_toLin]; exact mp_of_det _ (rzM_det t)

theorem ry_mp (t : ℝ) : MeasurePreserving (ry t : V3 → V3) volume volume := by
  rw [ry_toLin]; exact mp_of_det _ (ryM_det t)

theorem rz_inv (t : ℝ) (v : V3) : rz (-t) (rz t v) = v := by
  have := Real.sin_sq_add_cos_sq t
  funext i; fin_cases i <;> simp [rz]
  · linear_combination v 0 * this
  · linear_combination v 1 * this

theorem ry_inv (t : ℝ) (v : V3) : ry (-t) (ry t v) = v := by
  have := Real.sin_sq_add_cos_sq t
  funext i; fin_cases i <;> simp [ry]
  · linear_combination v 0 * this
  · linear_combination v 2 * this

theorem rz_cont (t : ℝ) : Continuous (rz t : V3 → V3) := by
  rw [rz_toLin]; exact LinearMap.continuous_of_finiteDimensional _
theorem ry_cont (t : ℝ) : Continuous (ry t : V3 → V3) := by
  rw [ry_toLin]; exact LinearMap.continuous_of_finiteDimensional _

noncomputable def rzE (t : ℝ) : V3 ≃ᵐ V3 where
  toFun := rz t
  invFun := rz (-t)
  left_inv := rz_inv t
  right_inv v := by simpa using rz_inv (-t) v
  measurable_toFun := (rz_cont t).measurable
  measurable_invFun := (rz_cont (-t)).measurable

noncomputable def ryE (t : ℝ) : V3 ≃ᵐ V3 where
  toFun := ry t
  invFun := ry (-t)
  left_inv := ry_inv t
  right_inv v := by simpa using ry_inv (-t) v
  measurable_toFun := (ry_cont t).measurable
  measurable_invFun := (ry_cont (-t)).measurable

theorem int_rz (t : ℝ) (S : Set V3) (f : V3 → ℂ) :
    ∫ v in rz t '' S, f v = ∫ v in S, f (rz t v) :=
  (rz_mp t).setIntegral_image_emb (rzE t).measurableEmbedding f S

theorem int_ry (t : ℝ) (S : Set V3) (f : V3 → ℂ) :
    ∫ v in ry t '' S, f v = ∫ v in S, f (ry t v) :=
  (ry_mp t).setIntegral_image_emb (ryE t).measurableEmbedding f S

theorem ball_rz (R t : ℝ) : rz t '' ball R = ball R := by
  ext v
  constructor
  · rintro ⟨w, hw, rfl⟩; simpa [ball, rz_modulus] using hw
  · intro hv; exact ⟨rz (-t) v, by simpa [ball, rz_modulus] using hv, by simpa using rz_inv (-t) v⟩

theorem ball_ry (R t : ℝ) : ry t '' ball R = ball R := by
  ext v
  constructor
  · rintro ⟨w, hw, rfl⟩; simpa [ball, ry_modulus] using hw
  · intro hv; exact ⟨ry (-t) v, by simpa [ball, ry_modulus] using hv, by simpa using ry_inv (-t) v⟩

theorem continuous_solidS (l : ℕ) (m : ℤ) : Continuous (solidS l m) := by
  have key : ∀ m : ℕ, Continuous (solidS l m) := by
    intro m
    by_cases hm : m ≤ l
    · have : solidS l m = fun v => ∑ k ∈ range ((l - m) / 2 + 1), ((Nlm l m * rc l m k : ℝ) : ℂ) *
          (((v 2 : ℂ)) ^ (l - m - 2 * k) * pmf m k (v 0, v 1)) := funext (solidS_cyl l m hm)
      rw [this]
      refine continuous_finset_sum _ fun k _ => continuous_const.mul (Continuous.mul (by fun_prop) ?_)
      exact (pmf_continuous m k).comp (by fun_prop)
    · have : solidS l m = fun _ => 0 := funext fun v => solidS_out l m v (by omega)
      rw [this]; exact continuous_const
  rcases Int.eq_nat_or_neg m with ⟨n, rfl | rfl⟩
  · exact key n
  · have : solidS l (-(n : ℤ)) = fun v => (-1) ^ n * (starRingEnd ℂ) (solidS l n v) := by
      funext v; rw [solidS_neg]; simp
    rw [this]
    exact continuous_const.mul (Complex.continuous_conj.comp (key n))

theorem modulus_continuous : Continuous modulus := by
  unfold modulus; fun_prop

theorem ball_compact (R : ℝ) : IsCompact (ball R) := by
  have hc : IsClosed (ball R) := isClosed_le modulus_continuous continuous_const
  refine IsCompact.of_isClosed_subset
    (isCompact_univ_pi (s := fun _ : Fin 3 => Set.Icc (-R) R) fun _ => isCompact_Icc) hc ?_
  intro v hv i _
  have : |v i| ≤ R := by
    refine le_trans ?_ (show modulus v ≤ R from hv)
    unfold modulus
    rw [← Real.sqrt_sq_eq_abs]
    apply Real.sqrt_le_sqrt
    fin_cases i <;> simp <;> nlinarith [sq_nonneg (v 0), sq_nonneg (v 1), sq_nonneg (v 2)]
  exact abs_le.1 this

theorem ball_m (R : ℝ) (l : ℕ) (m : ℤ) (hm : m ≠ 0) : ∫ v in ball R, solidS l m v = 0 := by
  have h := int_rz (Real.pi / m) (ball R) (solidS l m)
  rw [ball_rz] at h
  simp_rw [solidS_rz] at h
  rw [integral_const_mul] at h
  have he : Complex.exp (-Complex.I * m * ((Real.pi / m : ℝ) : ℂ)) = -1 := by
    have hm' : (m : ℂ) ≠ 0 := by exact_mod_cast hm
    rw [show -Complex.I * m * ((Real.pi / m : ℝ) : ℂ) = -(Real.pi * Complex.I) by push_cast; field_simp,
      Complex.exp_neg, Complex.exp_pi_mul_I]
    norm_num
  rw [he] at h
  have h2 : (2 : ℂ) * ∫ v in ball R, solidS l m v = 0 := by linear_combination h
  simpa using h2

/-- `P_l(0) ≠ 1` for `l > 0`. -/
theorem Rsol_ex (l : ℕ) (hl : 0 < l) : (l.factorial : ℂ) * Rsol l 0 ![1, 0, 0] ≠ 1 := by
  have := Rsol_expand l 0 (Nat.zero_le _) ![1, 0, 0]
  push_cast at this
  rw [this]
  rcases Nat.mod_two_eq_zero_or_one l with h | h
  · rw [sum_eq_single (l / 2)]
    · have h0 : l - 0 - 2 * (l / 2) = 0 := by omega
      obtain ⟨n, rfl⟩ : ∃ n, l = 2 * n := ⟨l / 2, by omega⟩
      have hn : 2 * n / 2 = n := by omega
      simp only [rc, h0, hn]
      simp
      intro hc
      have h1 : ((2 * n).factorial : ℝ) * ((-1) ^ n / (2 ^ (2 * n) * n.factorial * n.factorial)) = 1 := by
        exact_mod_cast hc
      have h2 : ((2 * n).factorial : ℝ) = n.centralBinom * n.factorial * n.factorial := by
        have := Nat.choose_mul_factorial_mul_factorial (show n ≤ 2 * n by omega)
        rw [show 2 * n - n = n by omega] at this
        rw [← this, Nat.centralBinom]; push_cast; ring
      have hf : (n.factorial : ℝ) ≠ 0 := by exact_mod_cast n.factorial_ne_zero
      rw [h2] at h1
      have h3 : (n.centralBinom : ℝ) * (-1) ^ n = 4 ^ n := by
        rw [show (4 : ℝ) ^ n = 2 ^ (2 * n) by rw [pow_mul]; norm_num]
        field_simp at h1
        linarith
      have h4 : n.centralBinom < 4 ^ n := by
        have : n.centralBinom < 2 ^ (2 * n) := by
          rw [Nat.centralBinom, ← Nat.sum_range_choose]
          have hsub : ({0, n} : Finset ℕ) ⊆ range (2 * n + 1) := by
            intro x hx; simp at hx; simp; omega
          refine lt_of_lt_of_le ?_ (sum_le_sum_of_subset (f := fun m => (2 * n).choose m) hsub)
          rw [sum_pair (by omega)]; simp
        rwa [pow_mul] at this
      have h5 : (n.centralBinom : ℝ) < 4 ^ n := by exact_mod_cast h4
      have h6 : (n.centralBinom : ℝ) * (-1) ^ n ≤ n.centralBinom := by
        rcases neg_one_pow_eq_or ℝ n with h | h <;> rw [h]
        · simp
        · have : (0 : ℝ) ≤ n.centralBinom := Nat.cast_nonneg _
          linarith
      linarith
    · intro k hk hne
      simp only [mem_range] at hk
      have : l - 0 - 2 * k ≠ 0 := by omega
      simp only [Matrix.cons_val, Complex.ofReal_zero, zero_pow this, mul_zero]
    · intro h'; exact absurd (mem_range.2 (by omega)) h'
  · rw [sum_eq_zero]
    · simp
    · intro k hk
      simp only [mem_range] at hk
      have : l - 0 - 2 * k ≠ 0 := by omega
      simp only [Matrix.cons_val, Complex.ofReal_zero, zero_pow this, mul_zero]

theorem ball_zero (R : ℝ) (l : ℕ) (hl : 0 < l) : ∫ v in ball R, solidS l 0 v = 0 := by
  have h := int_ry (Real.pi / 2) (ball R) (solidS l 0)
  rw [ball_ry] at h
  simp_rw [solidS_ry l 0 (by simp)] at h
  rw [integral_finset_sum] at h
  · simp_rw [integral_const_mul] at h
    rw [sum_eq_single 0] at h
    · set I := ∫ v in ball R, solidS l 0 v with hI
      have hd := solidS_ry l 0 (by simp) (Real.pi / 2) ![0, 0, 1]
      rw [sum_eq_single 0] at hd
      · have e : ry (Real.pi / 2) ![0, 0, 1] = ![1, 0, 0] := by
          funext i; fin_cases i <;> simp [ry]
        rw [e, solidS, solidS, Rsol_ez, if_pos rfl] at hd
        have hN : (Nlm l 0 : ℂ) ≠ 0 := by
          rw [Nlm]
          have : (0 : ℝ) < Real.pi := Real.pi_pos
          exact_mod_cast (Real.sqrt_pos.2 (by positivity)).ne'
        have hf : (l.factorial : ℂ) ≠ 0 := by exact_mod_cast l.factorial_ne_zero
        have hne := Rsol_ex l hl
        have hd2 : ((smalld l (Real.pi / 2) 0 0 : ℝ) : ℂ) = (l.factorial : ℂ) * Rsol l 0 ![1, 0, 0] := by
          have : (Nlm l 0 : ℂ) * (((smalld l (Real.pi / 2) 0 0 : ℝ) : ℂ)
              - (l.factorial : ℂ) * Rsol l 0 ![1, 0, 0]) = 0 := by
            have h2 := congrArg (fun x => (l.factorial : ℂ) * x) hd
            have h3 : (l.factorial : ℂ) * ((((1 : ℝ) : ℂ)) ^ l / (l.factorial : ℂ)) = 1 := by
              rw [Complex.ofReal_one, one_pow]; field_simp
            linear_combination (-1 : ℂ) * h2 - ((smalld l (Real.pi / 2) 0 0 : ℝ) : ℂ) * (Nlm l 0 : ℂ) * h3
          rcases mul_eq_zero.1 this with h | h
          · exact absurd h hN
          · exact sub_eq_zero.1 h
        rw [hd2] at h
        have : (1 - (l.factorial : ℂ) * Rsol l 0 ![1, 0, 0]) * I = 0 := by linear_combination h
        rcases mul_eq_zero.1 this with h' | h'
        · exact absurd (sub_eq_zero.1 h').symm hne
        · exact h'
      · intro b _ hb
        rw [solidS, Rsol_ez, if_neg hb]; simp
      · intro h'; exact absurd (Finset.mem_Icc.2 ⟨by omega, by omega⟩) h'
    · intro b _ hb; rw [ball_m R l b hb, mul_zero]
    · intro h'; exact absurd (Finset.mem_Icc.2 ⟨by omega, by omega⟩) h'
  · intro b _
    exact (continuous_const.mul (continuous_solidS l b)).continuousOn.integrableOn_compact (ball_compact R)

theorem ball_vol (R : ℝ) (hR : 0 < R) : 0 < (volume (ball R)).toReal := by
  apply ENNReal.toReal_pos
  · have : (interior (ball R)).Nonempty := by
      refine ⟨0, ?_⟩
      have ho : IsOpen {v : V3 | modulus v < R} := isOpen_lt modulus_continuous continuous_const
      have hs : {v : V3 | modulus v < R} ⊆ ball R := fun v hv => le_of_lt (show modulus v < R from hv)
      refine interior_maximal hs ho ?_
      simp [modulus, hR]
    exact (IsOpen.measure_pos volume isOpen_interior this).ne' ∘ fun h =>
      le_antisymm ((measure_mono interior_subset).trans h.le) bot_le
  · exact (ball_compact R).measure_lt_top.ne

theorem Nlm_zero : Nlm 0 0 = 1 / Real.sqrt (4 * Real.pi) := by
  rw [Nlm]; simp

theorem uniformMoment_zero (mass : ℝ) (S : Set V3) (hS : 0 < (volume S).toReal) :
    uniformMoment mass S 0 0 = ((mass / Real.sqrt (4 * Real.pi) : ℝ) : ℂ) := by
  rw [uniformMoment]
  simp_rw [solidS_zero_zero]
  rw [setIntegral_const, Nlm_zero]
  have : (((volume S).toReal : ℝ) : ℂ) ≠ 0 := by exact_mod_cast hS.ne'
  rw [Measure.real, Complex.real_smul]
  push_cast
  field_simp

theorem sphere_eq (L : ℕ) (mass R : ℝ) (hR : 0 < R) :
    sphere L mass R = Mom.ofFn L (uniformMoment mass (ball R)) := by
  apply Mom.ext_get
  intro l m hl hm
  rw [Mom.get_ofFn _ hl hm, sphere, Mom.get_ofFn _ hl hm]
  by_cases h : l = 0 ∧ m = 0
  · obtain ⟨rfl, rfl⟩ := h
    rw [if_pos ⟨rfl, rfl⟩, uniformMoment_zero mass _ (ball_vol R hR)]
  · rw [if_neg h, uniformMoment]
    by_cases h0 : m = 0
    · subst h0; rw [ball_zero R l (by omega), mul_zero]
    · rw [ball_m R l m h0, mul_zero]

end Newt
