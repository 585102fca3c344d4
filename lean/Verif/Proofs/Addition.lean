import Verif.Proofs.Legendre
import Verif.Props.OuterRot

/-!
# The addition theorem of the solid harmonics
-/

namespace Newt

open Spec Polynomial

/-- Squared length. -/
noncomputable def nsq (v : V3) : ℝ := v 0 ^ 2 + v 1 ^ 2 + v 2 ^ 2

theorem modulus_sq (v : V3) : modulus v ^ 2 = nsq v := by
  rw [modulus, Real.sq_sqrt (by positivity), nsq]

theorem modulus_eq_sqrt (v : V3) : modulus v = Real.sqrt (nsq v) := rfl

theorem uPoly_disc (v : V3) :
    derivative (uPoly v) ^ 2 = C (nsq v : ℂ) + C (-2 * ((v 0 : ℂ) - Complex.I * v 1)) * uPoly v := by
  have hI := Complex.I_sq
  apply Polynomial.funext
  intro t
  simp only [uPoly, derivative_add, derivative_mul, derivative_C, derivative_X_pow, derivative_X, eval_add, eval_mul,
    eval_pow, eval_C, eval_X, nsq]
  simp
  linear_combination (-(v 1 : ℂ) ^ 2) * hI

theorem coeff_central_rec (v : V3) (l : ℕ) :
    ((l : ℂ) + 2) * (uPoly v ^ (l + 2)).coeff (l + 2) =
      (2 * l + 3) * v 2 * (uPoly v ^ (l + 1)).coeff (l + 1) - (l + 1) * nsq v * (uPoly v ^ l).coeff l := by
  set u := uPoly v with hu
  set a : ℂ := -((v 0 : ℂ) - Complex.I * v 1) / 2 with ha
  have hdu : derivative u = C (2 * a) * X + C (v 2 : ℂ) := by
    rw [hu, uPoly]
    apply Polynomial.funext
    intro t
    simp [ha]
    ring
  -- first relation
  have h1 : ((l : ℂ) + 2) * (u ^ (l + 2)).coeff (l + 2) =
      (l + 2) * (2 * a * (u ^ (l + 1)).coeff l + v 2 * (u ^ (l + 1)).coeff (l + 1)) := by
    have e : derivative (u ^ (l + 2)) = C ((l : ℂ) + 2) * ((C (2 * a) * X + C (v 2 : ℂ)) * u ^ (l + 1)) := by
      rw [derivative_pow, hdu]
      simp
      ring
    have e2 := congrArg (fun p => p.coeff (l + 1)) e
    simp only [coeff_derivative, coeff_C_mul, add_mul, mul_assoc, coeff_add, coeff_X_mul] at e2
    push_cast at e2
    linear_combination e2
  have h2 : 2 * a * l * (u ^ (l + 1)).coeff l + v 2 * (l + 1) * (u ^ (l + 1)).coeff (l + 1) =
      (l + 1) * nsq v * (u ^ l).coeff l + 4 * a * (l + 1) * (u ^ (l + 1)).coeff l := by
    have e : (C (2 * a) * X + C (v 2 : ℂ)) * (X * derivative (u ^ (l + 1))) =
        C (((l : ℂ) + 1)) * (X * (C (nsq v : ℂ) * u ^ l + C (4 * a) * u ^ (l + 1))) := by
      have hd := uPoly_disc v
      rw [← hu] at hd
      rw [show (-2 * ((v 0 : ℂ) - Complex.I * v 1)) = 4 * a by rw [ha]; ring] at hd
      rw [← hdu, derivative_pow]
      have : C ((l : ℂ) + 1) * (X * (C (nsq v : ℂ) * u ^ l + C (4 * a) * u ^ (l + 1))) =
          C ((l : ℂ) + 1) * X * u ^ l * (C (nsq v : ℂ) + C (4 * a) * u) := by ring
      rw [this, ← hd]
      simp
      ring
    have e2 := congrArg (fun p => p.coeff (l + 1)) e
    have hX : ∀ (p : ℂ[X]) (k : ℕ), (X * derivative p).coeff k = k * p.coeff k := by
      intro p k
      rcases k with _ | k
      · simp
      · rw [coeff_X_mul, coeff_derivative]; push_cast; ring
    simp only [coeff_C_mul, add_mul, mul_assoc, coeff_add, coeff_X_mul, hX] at e2
    push_cast at e2
    linear_combination e2
  linear_combination h1 - h2

theorem Rsol_zero_pz (v : V3) : ∀ l : ℕ,
    (l.factorial : ℂ) * Rsol l 0 v = ((pz (v 2) (nsq v) l : ℝ) : ℂ) := by
  have e : ∀ l : ℕ, (l.factorial : ℂ) * Rsol l 0 v = (uPoly v ^ l).coeff l := by
    intro l
    rw [Rsol, add_zero, zc_nat]
    have : (l.factorial : ℂ) ≠ 0 := by exact_mod_cast l.factorial_ne_zero
    field_simp
  intro l
  rw [e]
  induction l using Nat.twoStepInduction with
  | zero => simp [pz]
  | one => simp [pz, uPoly]
  | more l h1 h2 =>
    have h3 : ((l : ℂ) + 2) ≠ 0 := by exact_mod_cast (by omega : l + 2 ≠ 0)
    apply mul_left_cancel₀ h3
    have h := congrArg (fun x : ℝ => (x : ℂ)) (pz_rec (v 2) (nsq v) l)
    push_cast at h
    rw [coeff_central_rec, h1, h2, h]

/-- The degree-`l` kernel `sum_m S_lm(x) conj(S_lm(y))`. -/
noncomputable def kern (l : ℕ) (x y : V3) : ℂ :=
  ∑ m ∈ Finset.Icc (-(l : ℤ)) l, solidS l m x * (starRingEnd ℂ) (solidS l m y)

theorem kern_rot (l : ℕ) (alpha beta gamma : ℝ) (x y : V3) :
    kern l (eul alpha beta gamma x) (eul alpha beta gamma y) = kern l x y := by
  have h1 : ∀ m ∈ Finset.Icc (-(l : ℤ)) l, solidS l m (eul alpha beta gamma x) *
      (starRingEnd ℂ) (solidS l m (eul alpha beta gamma y)) =
      ∑ b ∈ Finset.Icc (-(l : ℤ)) l, ∑ c ∈ Finset.Icc (-(l : ℤ)) l,
        (solidS l b x * (starRingEnd ℂ) (solidS l c y)) *
        (bigD l alpha beta gamma m b * (starRingEnd ℂ) (bigD l alpha beta gamma m c)) := by
    intro m hm
    rw [Finset.mem_Icc] at hm
    rw [eul, eul, solidS_rot l m (by omega), solidS_rot l m (by omega), map_sum, Finset.sum_mul_sum]
    apply Finset.sum_congr rfl; intro b _
    apply Finset.sum_congr rfl; intro c _
    rw [map_mul]; ring
  rw [kern, Finset.sum_congr rfl h1, Finset.sum_comm, kern]
  apply Finset.sum_congr rfl; intro b hb
  rw [Finset.mem_Icc] at hb
  rw [Finset.sum_comm, Finset.sum_eq_single b]
  · rw [← Finset.mul_sum]
    have := bigD_unitary_cols l alpha beta gamma b b (by omega) (by omega)
    rw [if_pos rfl] at this
    rw [this, mul_one]
  · intro c hc hcb
    rw [Finset.mem_Icc] at hc
    rw [← Finset.mul_sum]
    have := bigD_unitary_cols l alpha beta gamma b c (by omega) (by omega)
    rw [if_neg (Ne.symm hcb)] at this
    rw [this, mul_zero]
  · intro h; exact absurd (Finset.mem_Icc.2 hb) h

theorem kern_ez (l : ℕ) (x : V3) (r : ℝ) :
    kern l x ![0, 0, r] = (((2 * l + 1) / (4 * Real.pi) * r ^ l * pz (x 2) (nsq x) l : ℝ) : ℂ) := by
  rw [kern, Finset.sum_eq_single 0]
  · rw [solidS, solidS, Rsol_ez, if_pos rfl, map_mul, Complex.conj_ofReal, map_div₀, map_pow, Complex.conj_ofReal,
      Complex.conj_natCast]
    have h := Rsol_zero_pz x l
    have hN := congrArg (fun t : ℝ => (t : ℂ)) (Nlm_zero_sq l)
    have hf : (l.factorial : ℂ) ≠ 0 := by exact_mod_cast l.factorial_ne_zero
    push_cast at hN ⊢
    rw [← h]
    have : (Nlm l 0 : ℂ) * Rsol l 0 x * ((Nlm l 0 : ℂ) * ((r : ℂ) ^ l / (l.factorial : ℂ))) =
      (Nlm l 0 : ℂ) ^ 2 * (Rsol l 0 x * (r : ℂ) ^ l / (l.factorial : ℂ)) := by ring
    rw [this, hN]
    field_simp
  · intro m _ hm
    rw [solidS, solidS, Rsol_ez, if_neg hm]; simp
  · intro h; simp at h

theorem eul_sub (alpha beta gamma : ℝ) (x y : V3) :
    eul alpha beta gamma (x - y) = eul alpha beta gamma x - eul alpha beta gamma y := by
  funext i
  fin_cases i <;> simp [eul, rz, ry] <;> ring

theorem nsq_sub (x y : V3) : nsq (x - y) = nsq x + nsq y - 2 * (x ⬝ᵥ y) := by
  simp [nsq, dotProduct, Fin.sum_univ_three]; ring

theorem eul_dot (alpha beta gamma : ℝ) (x y : V3) :
    eul alpha beta gamma x ⬝ᵥ eul alpha beta gamma y = x ⬝ᵥ y := by
  have h1 := nsq_sub (eul alpha beta gamma x) (eul alpha beta gamma y)
  rw [← eul_sub, ← modulus_sq, ← modulus_sq, ← modulus_sq, eul_modulus, eul_modulus, eul_modulus, modulus_sq, modulus_sq,
    modulus_sq, nsq_sub] at h1
  linarith

/-- The addition theorem: the kernel is a Legendre polynomial of the enclosed angle. -/
theorem kern_eq (l : ℕ) (x y : V3) (hy : y ≠ 0) :
    kern l x y = (((2 * l + 1) / (4 * Real.pi) * modulus y ^ l *
      pz ((x ⬝ᵥ y) / modulus y) (modulus x ^ 2) l : ℝ) : ℂ) := by
  have hz := eul_to_z y hy
  set a := -phiPOf y
  set b := -thetaPOf y
  have hm : 0 < modulus y := lt_of_le_of_ne (Real.sqrt_nonneg _) (Ne.symm fun h => hy ((modulus_eq_zero y).1 h))
  have hd := eul_dot a b a x y
  rw [hz, rPOf_eq] at hd
  have hx2 : eul a b a x 2 = (x ⬝ᵥ y) / modulus y := by
    rw [eq_div_iff hm.ne', ← hd]; simp [dotProduct, Fin.sum_univ_three]
  rw [← kern_rot l a b a x y, hz, kern_ez, rPOf_eq, hx2, ← modulus_sq, eul_modulus]

theorem kern_self (l : ℕ) (x : V3) : kern l x x = (((2 * l + 1) / (4 * Real.pi) * modulus x ^ (2 * l) : ℝ) : ℂ) := by
  by_cases hx : x = 0
  · subst hx
    rcases l with _ | l
    · rw [kern]
      simp only [Nat.cast_zero, neg_zero, Finset.Icc_self, Finset.sum_singleton]
      rw [solidS, Rsol_zero_zero, mul_one, Complex.conj_ofReal, ← Complex.ofReal_mul, ← pow_two, Nlm_zero_sq]
      simp
    · rw [kern, (modulus_eq_zero 0).2 rfl]
      rw [Finset.sum_eq_zero]
      · simp
      · intro m _
        rw [solidS, Rsol_at_zero _ (by omega)]; simp
  · have hz := eul_to_z x hx
    set a := -phiPOf x
    set b := -thetaPOf x
    have hm : 0 < modulus x := lt_of_le_of_ne (Real.sqrt_nonneg _) (Ne.symm fun h => hx ((modulus_eq_zero x).1 h))
    rw [← kern_rot l a b a x x, hz, kern, Finset.sum_eq_single 0]
    · rw [solidS, Rsol_ez, if_pos rfl, map_mul, Complex.conj_ofReal, map_div₀, map_pow, Complex.conj_ofReal,
        Complex.conj_natCast, rPOf_eq]
      have hN := congrArg (fun t : ℝ => (t : ℂ)) (Nlm_zero_sq l)
      have hf : (l.factorial : ℂ) ≠ 0 := by exact_mod_cast l.factorial_ne_zero
      push_cast at hN ⊢
      have : (Nlm l 0 : ℂ) * ((modulus x : ℂ) ^ l / (l.factorial : ℂ)) * ((Nlm l 0 : ℂ) * ((modulus x : ℂ) ^ l / (l.factorial : ℂ))) =
        (Nlm l 0 : ℂ) ^ 2 * ((modulus x : ℂ) ^ (2 * l) / (l.factorial : ℂ) ^ 2) := by ring
      rw [this, hN]
      field_simp
    · intro m _ hm
      rw [solidS, Rsol_ez, if_neg hm]; simp
    · intro h; simp at h

theorem sum_normSq_solidS (l : ℕ) (x : V3) :
    ∑ m ∈ Finset.Icc (-(l : ℤ)) l, ‖solidS l m x‖ ^ 2 = (2 * l + 1) / (4 * Real.pi) * modulus x ^ (2 * l) := by
  have h := kern_self l x
  rw [kern] at h
  simp only [Complex.mul_conj, Complex.normSq_eq_norm_sq] at h
  exact_mod_cast h

theorem norm_solidS_sq_le (l : ℕ) (m : ℤ) (hm : m.natAbs ≤ l) (x : V3) :
    ‖solidS l m x‖ ^ 2 ≤ (2 * l + 1) / (4 * Real.pi) * modulus x ^ (2 * l) := by
  rw [← sum_normSq_solidS]
  exact Finset.single_le_sum (f := fun m => ‖solidS l m x‖ ^ 2) (fun i _ => by positivity)
    (Finset.mem_Icc.2 ⟨by omega, by omega⟩)

theorem pz_vec_le (l : ℕ) (v : V3) : |pz (v 2) (nsq v) l| ≤ modulus v ^ l := by
  have h := norm_solidS_sq_le l 0 (by simp) v
  have e : ‖solidS l 0 v‖ ^ 2 = (2 * l + 1) / (4 * Real.pi) * pz (v 2) (nsq v) l ^ 2 := by
    have h1 := congrArg (fun t : ℂ => ‖t‖ ^ 2) (Rsol_zero_pz v l)
    simp only [norm_mul, Complex.norm_natCast, Complex.norm_real, mul_pow, Real.norm_eq_abs, sq_abs] at h1
    rw [solidS, norm_mul, mul_pow, Complex.norm_real, Real.norm_eq_abs, sq_abs, Nlm_zero_sq, ← h1]
    ring
  rw [e, pow_mul' (modulus v) 2 l] at h
  have hpos : (0 : ℝ) < (2 * l + 1) / (4 * Real.pi) := by have := Real.pi_pos; positivity
  have := le_of_mul_le_mul_left h hpos
  exact abs_le_of_sq_le_sq this (pow_nonneg (Real.sqrt_nonneg _) l)

/-- `|P_l| <= 1` in homogeneous form. -/
theorem pz_le (l : ℕ) {z r : ℝ} (hz : |z| ≤ r) : |pz z (r ^ 2) l| ≤ r ^ l := by
  have hr : 0 ≤ r := (abs_nonneg z).trans hz
  have h3 : z ^ 2 ≤ r ^ 2 := sq_le_sq' (by linarith [(abs_le.1 hz).1]) (abs_le.1 hz).2
  have h := pz_vec_le l ![Real.sqrt (r ^ 2 - z ^ 2), 0, z]
  have hn : nsq ![Real.sqrt (r ^ 2 - z ^ 2), 0, z] = r ^ 2 := by
    simp [nsq, Real.sq_sqrt (sub_nonneg.2 h3)]
  rw [hn] at h
  have hm : modulus ![Real.sqrt (r ^ 2 - z ^ 2), 0, z] = r := by
    rw [modulus_eq_sqrt, hn, Real.sqrt_sq hr]
  rw [hm] at h
  simpa using h

theorem abs_dot_le (x y : V3) : |x ⬝ᵥ y| ≤ modulus x * modulus y := by
  rw [modulus_eq_sqrt, modulus_eq_sqrt, ← Real.sqrt_mul (by simp [nsq]; positivity)]
  apply Real.abs_le_sqrt
  simp [nsq, dotProduct, Fin.sum_univ_three]
  nlinarith [sq_nonneg (x 0 * y 1 - x 1 * y 0), sq_nonneg (x 0 * y 2 - x 2 * y 0), sq_nonneg (x 1 * y 2 - x 2 * y 1)]

/-- The degree-`l` term of the expansion of `1/|x-y|`. -/
theorem term_eq (l : ℕ) (x y : V3) (hy : y ≠ 0) :
    ∑ m ∈ Finset.Icc (-(l : ℤ)) l, solidS l m x * solidO l m y / (2 * l + 1) =
      (((1 / (4 * Real.pi)) * (pz ((x ⬝ᵥ y) / modulus y) (modulus x ^ 2) l * (1 / modulus y) ^ l / modulus y) : ℝ) : ℂ) := by
  have hm : 0 < modulus y := lt_of_le_of_ne (Real.sqrt_nonneg _) (Ne.symm fun h => hy ((modulus_eq_zero y).1 h))
  have h := kern_eq l x y hy
  have e : ∑ m ∈ Finset.Icc (-(l : ℤ)) l, solidS l m x * solidO l m y / (2 * l + 1) =
      kern l x y / ((modulus y ^ (2 * l + 1) : ℝ) : ℂ) / (2 * l + 1) := by
    rw [kern, Finset.sum_div, Finset.sum_div]
    apply Finset.sum_congr rfl
    intro m _
    rw [solidO]; ring
  rw [e, h]
  have h2 : (2 * (l : ℂ) + 1) ≠ 0 := by exact_mod_cast (by omega : 2 * l + 1 ≠ 0)
  have h3 : (modulus y : ℂ) ≠ 0 := by exact_mod_cast hm.ne'
  push_cast
  rw [show 2 * l + 1 = l + (l + 1) by ring, pow_add, one_div (modulus y : ℂ), inv_pow]
  field_simp
  ring

/-- The Laplace expansion of the inverse distance. -/
theorem laplace_hasSum (x y : V3) (h : modulus x < modulus y) :
    HasSum (fun l : ℕ => pz ((x ⬝ᵥ y) / modulus y) (modulus x ^ 2) l * (1 / modulus y) ^ l / modulus y)
      (1 / dist3 x y) := by
  have hx : 0 ≤ modulus x := Real.sqrt_nonneg _
  have hm : 0 < modulus y := lt_of_le_of_lt hx h
  have hz : |(x ⬝ᵥ y) / modulus y| ≤ modulus x := by
    rw [abs_div, abs_of_pos hm, div_le_iff₀ hm]; exact abs_dot_le x y
  have hs : |1 / modulus y| * modulus x < 1 := by
    rw [abs_of_pos (by positivity), one_div, inv_mul_lt_iff₀ hm]; linarith
  have h1 := (legendre_gen (fun l => pz_le l hz) hx hz hs).div_const (modulus y)
  have e : 1 / Real.sqrt (1 - 2 * ((x ⬝ᵥ y) / modulus y) * (1 / modulus y) + modulus x ^ 2 * (1 / modulus y) ^ 2) / modulus y
      = 1 / dist3 x y := by
    have : dist3 x y = modulus y * Real.sqrt (1 - 2 * ((x ⬝ᵥ y) / modulus y) * (1 / modulus y) + modulus x ^ 2 * (1 / modulus y) ^ 2) := by
      conv_rhs => rw [← Real.sqrt_sq hm.le]
      rw [← Real.sqrt_mul (by positivity), dist3]
      congr 1
      have hsq : Real.sqrt (modulus y ^ 2) = modulus y := Real.sqrt_sq hm.le
      rw [hsq]
      have : ∑ i, (x i - y i) ^ 2 = nsq (x - y) := by simp [nsq, Fin.sum_univ_three]
      rw [this, nsq_sub, ← modulus_sq, ← modulus_sq]
      field_simp
      ring
    rw [this]
    rw [div_div, mul_comm]
  rw [e] at h1
  exact h1

/-- Truncation error of the Laplace expansion. -/
theorem laplace_error (x y : V3) (h : modulus x < modulus y) (L : ℕ) :
    |∑ l ∈ Finset.range (L + 1), pz ((x ⬝ᵥ y) / modulus y) (modulus x ^ 2) l * (1 / modulus y) ^ l / modulus y
      - 1 / dist3 x y| ≤ (modulus x / modulus y) ^ (L + 1) / (modulus y - modulus x) := by
  have hx : 0 ≤ modulus x := Real.sqrt_nonneg _
  have hm : 0 < modulus y := lt_of_le_of_lt hx h
  have hz : |(x ⬝ᵥ y) / modulus y| ≤ modulus x := by
    rw [abs_div, abs_of_pos hm, div_le_iff₀ hm]; exact abs_dot_le x y
  have h1 := laplace_hasSum x y h
  have h2 := (hasSum_nat_add_iff' (L + 1)).2 h1
  rw [abs_sub_comm]
  have hq : modulus x / modulus y < 1 := by rwa [div_lt_one hm]
  have hg := (hasSum_geometric_of_lt_one (by positivity : 0 ≤ modulus x / modulus y) hq).mul_left
    ((modulus x / modulus y) ^ (L + 1) / modulus y)
  have e : (modulus x / modulus y) ^ (L + 1) / modulus y * (1 - modulus x / modulus y)⁻¹ =
      (modulus x / modulus y) ^ (L + 1) / (modulus y - modulus x) := by
    rw [one_sub_div hm.ne', inv_div]
    field_simp
  rw [e] at hg
  rw [← Real.norm_eq_abs, ← h2.tsum_eq, ← hg.tsum_eq]
  apply tsum_of_norm_bounded hg.summable.hasSum
  intro n
  rw [norm_div, norm_mul, Real.norm_eq_abs, Real.norm_eq_abs, Real.norm_eq_abs, abs_of_pos hm,
    abs_of_nonneg (by positivity : (0 : ℝ) ≤ (1 / modulus y) ^ (n + (L + 1)))]
  calc |pz ((x ⬝ᵥ y) / modulus y) (modulus x ^ 2) (n + (L + 1))| * (1 / modulus y) ^ (n + (L + 1)) / modulus y
      ≤ modulus x ^ (n + (L + 1)) * (1 / modulus y) ^ (n + (L + 1)) / modulus y := by
        gcongr; exact pz_le _ hz
    _ = (modulus x / modulus y) ^ (L + 1) / modulus y * (modulus x / modulus y) ^ n := by
        rw [← mul_pow, mul_one_div, pow_add]; ring

end Newt
