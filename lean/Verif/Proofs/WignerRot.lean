import Verif.Proofs.WignerRec
import Verif.Proofs.GlibRot
import Verif.Proofs.TranslationsAlg

/-! # Entries of the Wigner matrices, and the action of rotations on solid harmonics -/

namespace Newt

open Polynomial Spec

/-! ## angles -/

theorem smalld_periodic (l : ℕ) (a b : ℤ) (hb : b.natAbs ≤ l) :
    Function.Periodic (fun beta => smalld l beta a b) (2 * Real.pi) := by
  intro beta
  simp only [smalld]
  rw [show (beta + 2 * Real.pi) / 2 = beta / 2 + Real.pi by ring, Real.cos_add_pi, Real.sin_add_pi,
    dcs_neg _ _ _ _ _ hb]

theorem smalld_neg (l : ℕ) (a b : ℤ) (ha : a.natAbs ≤ l) (hb : b.natAbs ≤ l) (beta : ℝ) :
    smalld l (-beta) a b = (-1) ^ a * (-1) ^ b * smalld l beta a b := by
  simp only [smalld]
  rw [neg_div, Real.cos_neg, Real.sin_neg, dcs_neg_s _ _ _ _ _ ha hb]

theorem negone_natAbs (a : ℤ) : ((-1 : ℝ)) ^ a.natAbs = (-1) ^ a := by
  rcases Int.natAbs_eq a with h | h
  · conv_rhs => rw [h]
    rw [zpow_natCast]
  · conv_rhs => rw [h]
    rw [zpow_neg, zpow_natCast]
    have := negone_sq_nat a.natAbs
    exact eq_inv_of_mul_eq_one_left this

theorem pyMod_bounds (beta : ℝ) :
    0 ≤ pyMod beta (2 * Real.pi) ∧ pyMod beta (2 * Real.pi) < 2 * Real.pi := by
  have hp : 0 < 2 * Real.pi := by have := Real.pi_pos; positivity
  rw [pyMod]
  have h1 := Int.floor_le (beta / (2 * Real.pi))
  have h2 := Int.lt_floor_add_one (beta / (2 * Real.pi))
  rw [le_div_iff₀ hp] at h1
  rw [div_lt_iff₀ hp] at h2
  constructor <;> linarith

theorem betaRed_bounds (beta : ℝ) : 0 ≤ betaRed beta ∧ betaRed beta ≤ Real.pi := by
  have := pyMod_bounds beta
  simp only [betaRed]
  split_ifs <;> constructor <;> linarith

theorem smalld_pyMod (l : ℕ) (a b : ℤ) (hb : b.natAbs ≤ l) (beta : ℝ) :
    smalld l (pyMod beta (2 * Real.pi)) a b = smalld l beta a b := by
  have h := (smalld_periodic l a b hb).sub_int_mul_eq ⌊beta / (2 * Real.pi)⌋ (x := beta)
  rw [← h, pyMod, mul_comm (2 * Real.pi)]

/-- The reduction of `beta` is undone by the factor. -/
theorem smalld_red (l : ℕ) (a b : ℤ) (ha : a.natAbs ≤ l) (hb : b.natAbs ≤ l) (beta : ℝ) :
    smalld l (betaRed beta) a b * betaFac beta a b = smalld l beta a b := by
  rw [← smalld_pyMod l a b hb beta, betaFac]
  simp only [betaRed]
  split_ifs with h
  · have h2 := (smalld_periodic l a b hb) (-pyMod beta (2 * Real.pi))
    dsimp only at h2
    rw [show 2 * Real.pi - pyMod beta (2 * Real.pi) = -pyMod beta (2 * Real.pi) + 2 * Real.pi by ring,
      h2, smalld_neg l a b ha hb, negone_natAbs, negone_natAbs]
    linear_combination smalld l (pyMod beta (2 * Real.pi)) a b * ((-1) ^ b * (-1) ^ b) *
      negone_sq_int a + smalld l (pyMod beta (2 * Real.pi)) a b * negone_sq_int b
  · ring

/-! ## the entries of `wignerDl` and `dlmn` -/

theorem hEntry (n : ℕ) (beta : ℝ) (a b : ℤ) (ha : a.natAbs ≤ n) (hb : b.natAbs ≤ n) :
    (if n = 0 then hInit 0 (betaRed beta) else hFull n (betaRed beta)) a b =
      epsm a * epsm (-b) * smalld n (betaRed beta) a b := by
  have hs : 0 ≤ Real.sin (betaRed beta) :=
    Real.sin_nonneg_of_nonneg_of_le_pi (betaRed_bounds beta).1 (betaRed_bounds beta).2
  split_ifs with h
  · subst h
    obtain rfl : a = 0 := by omega
    obtain rfl : b = 0 := by omega
    rw [hInit_row 0 _ hs 0 le_rfl (by simp), Ht, smalld]
  · rw [hFull_eq n (by omega) _ hs a b ha hb, Ht, smalld]

theorem dlmn_some (L : ℕ) (hL : 1 ≤ L) (beta : ℝ) :
    ∃ ds, dlmn L beta = some ds ∧ ds.length = L + 1 ∧
      ∀ (l : ℕ) (a b : ℤ), l ≤ L → a.natAbs ≤ l → b.natAbs ≤ l →
        ds.getD l 0 a b = smalld l beta a b := by
  rw [dlmn, rotate_H_recurs, if_neg (by omega)]
  refine ⟨_, rfl, by simp, ?_⟩
  intro l a b hl ha hb
  simp only [List.map_map]
  rw [List.getD_eq_getElem?_getD, List.getElem?_map, List.getElem?_range (by omega)]
  simp only [Option.map_some, Option.getD_some, Function.comp]
  rw [hEntry l beta a b ha hb, ← smalld_red l a b ha hb beta]
  linear_combination (smalld l (betaRed beta) a b * betaFac beta a b) *
    (epsm_sq a * (epsm (-b) * epsm (-b)) + epsm_sq (-b))

/-- The complex Wigner matrix. -/
noncomputable def bigD (l : ℕ) (alpha beta gamma : ℝ) (a b : ℤ) : ℂ :=
  Complex.exp (-Complex.I * a * alpha) * (smalld l beta a b : ℝ) * Complex.exp (-Complex.I * b * gamma)

theorem wignerDl_some (L : ℕ) (hL : 1 ≤ L) (alpha beta gamma : ℝ) :
    ∃ ds, wignerDl L alpha beta gamma = some ds ∧ ds.length = L + 1 ∧
      ∀ (l : ℕ) (a b : ℤ), l ≤ L → a.natAbs ≤ l → b.natAbs ≤ l →
        ds.getD l 0 a b = bigD l alpha beta gamma a b := by
  rw [wignerDl, rotate_H_recurs, if_neg (by omega)]
  refine ⟨_, rfl, by simp, ?_⟩
  intro l a b hl ha hb
  simp only [List.map_map]
  rw [List.getD_eq_getElem?_getD, List.getElem?_map, List.getElem?_range (by omega)]
  simp only [Option.map_some, Option.getD_some, Function.comp]
  rw [hEntry l beta a b ha hb, bigD, ← smalld_red l a b ha hb beta]
  have e1 : ((epsm a : ℝ) : ℂ) * (epsm a : ℝ) = 1 := by exact_mod_cast epsm_sq a
  have e2 : ((epsm (-b) : ℝ) : ℂ) * (epsm (-b) : ℝ) = 1 := by exact_mod_cast epsm_sq (-b)
  push_cast
  linear_combination (((smalld l (betaRed beta) a b : ℝ) : ℂ) * (betaFac beta a b : ℝ) *
    Complex.exp (-Complex.I * a * alpha) * Complex.exp (-Complex.I * b * gamma)) *
    (e1 * (((epsm (-b) : ℝ) : ℂ) * (epsm (-b) : ℝ)) + e2)

/-! ## the explicit formula -/

theorem Dlmn_eq (l : ℕ) (m n : ℤ) (hm : m.natAbs ≤ l) (hn : n.natAbs ≤ l) (alpha beta gamma : ℝ) :
    Dlmn l m n alpha beta gamma = bigD l alpha beta gamma n m := by
  have hsum : (∑ k ∈ Finset.Icc (max (m - n) 0) (min ((l : ℤ) + m) (l - n)),
      (-1 : ℝ) ^ k * Real.cos (beta / 2) ^ (2 * l + m - n - 2 * k)
        * Real.sin (beta / 2) ^ (n - m + 2 * k)
      / (spFactorial k * spFactorial (l + m - k))
      / (spFactorial (l - n - k) * spFactorial (n - m + k))) *
        (fct (l + m) * fct (l - m)) * (-1) ^ (n - m) =
      wM (Real.cos (beta / 2)) (Real.sin (beta / 2)) (2 * l) (l + n).toNat (l + m).toNat := by
    generalize Real.cos (beta / 2) = c
    generalize Real.sin (beta / 2) = s
    rw [wM_explicit, Finset.sum_mul, Finset.sum_mul]
    symm
    refine Finset.sum_bij_ne_zero (fun (a : ℕ) _ _ => (l : ℤ) + m - a) ?_ ?_ ?_ ?_
    · intro a ha hne
      rw [Finset.mem_range] at ha
      rw [Finset.mem_Icc]
      have h1 : a ≤ ((l : ℤ) + m).toNat := by
        by_contra hc
        rw [Nat.choose_eq_zero_of_lt (show ((l : ℤ) + m).toNat < a by omega)] at hne
        simp at hne
      have h2 : ((l : ℤ) + n).toNat - a ≤ 2 * l - ((l : ℤ) + m).toNat := by
        by_contra hc
        rw [Nat.choose_eq_zero_of_lt (show 2 * l - ((l : ℤ) + m).toNat < ((l : ℤ) + n).toNat - a by omega)] at hne
        simp at hne
      constructor <;> omega
    · intro a _ _ b _ _ h; omega
    · intro k hk hne
      rw [Finset.mem_Icc] at hk
      refine ⟨((l : ℤ) + m - k).toNat, Finset.mem_range.2 (by omega), ?_, by omega⟩
      -- non-zero
      intro h0
      apply hne
      obtain ⟨k, rfl⟩ := Int.eq_ofNat_of_zero_le (show 0 ≤ k by omega)
      rw [mul_eq_zero, mul_eq_zero, mul_eq_zero, mul_eq_zero, mul_eq_zero] at h0
      have c1 : ((((l : ℤ) + m).toNat.choose ((l : ℤ) + m - k).toNat : ℕ) : ℝ) ≠ 0 := by
        exact_mod_cast (Nat.choose_pos (by omega)).ne'
      have c2 : (((2 * l - ((l : ℤ) + m).toNat).choose
          (((l : ℤ) + n).toNat - ((l : ℤ) + m - k).toNat) : ℕ) : ℝ) ≠ 0 := by
        exact_mod_cast (Nat.choose_pos (by omega)).ne'
      have key : c ^ (2 * (l : ℤ) + m - n - 2 * k) * s ^ (n - m + 2 * (k : ℤ)) = 0 := by
        rw [show 2 * (l : ℤ) + m - n - 2 * k = ((((l : ℤ) + m - k).toNat +
            (2 * l - ((l : ℤ) + m).toNat - (((l : ℤ) + n).toNat - ((l : ℤ) + m - k).toNat)) : ℕ) : ℤ)
            by omega,
          show n - m + 2 * (k : ℤ) = (((((l : ℤ) + m).toNat - ((l : ℤ) + m - k).toNat) +
            (((l : ℤ) + n).toNat - ((l : ℤ) + m - k).toNat) : ℕ) : ℤ) by omega,
          zpow_natCast, zpow_natCast, pow_add, pow_add]
        have hneg : ∀ (x : ℝ) (e : ℕ), (-x) ^ e = 0 → x ^ e = 0 := by
          intro x e h
          rw [neg_pow] at h
          exact (mul_eq_zero.1 h).resolve_left (pow_ne_zero _ (by norm_num))
        rcases h0 with ((h | h) | h) | ((h | h) | h)
        · rw [h]; simp
        · rw [h]; simp
        · exact absurd h c1
        · rw [hneg _ _ h]; simp
        · rw [h]; simp
        · exact absurd h c2
      rw [mul_assoc ((-1 : ℝ) ^ _), key]; simp
    · intro a ha hne
      rw [Finset.mem_range] at ha
      have h1 : a ≤ ((l : ℤ) + m).toNat := by
        by_contra hc
        rw [Nat.choose_eq_zero_of_lt (show ((l : ℤ) + m).toNat < a by omega)] at hne
        simp at hne
      have h2 : ((l : ℤ) + n).toNat - a ≤ 2 * l - ((l : ℤ) + m).toNat := by
        by_contra hc
        rw [Nat.choose_eq_zero_of_lt (show 2 * l - ((l : ℤ) + m).toNat < ((l : ℤ) + n).toNat - a by omega)] at hne
        simp at hne
      obtain ⟨u, hu⟩ := Nat.exists_eq_add_of_le h1
      obtain ⟨v, hv⟩ := Nat.exists_eq_add_of_le (show a ≤ ((l : ℤ) + n).toNat by omega)
      obtain ⟨w, hw⟩ := Nat.exists_eq_add_of_le h2
      have hlm : fct ((l : ℤ) + m) = ((a + u).factorial : ℝ) := by rw [fct, hu]
      have hlm' : fct ((l : ℤ) - m) = ((v + w).factorial : ℝ) := by
        rw [fct]; congr 2; omega
      have k1 : spFactorial ((l : ℤ) + m - a) = u.factorial := by
        rw [spFactorial, if_neg (by omega)]; congr 2; omega
      have k2 : spFactorial ((l : ℤ) + m - (l + m - a)) = a.factorial := by
        rw [spFactorial, if_neg (by omega)]; congr 2; omega
      have k3 : spFactorial ((l : ℤ) - n - (l + m - a)) = w.factorial := by
        rw [spFactorial, if_neg (by omega)]; congr 2; omega
      have k4 : spFactorial (n - m + (l + m - a)) = v.factorial := by
        rw [spFactorial, if_neg (by omega)]; congr 2; omega
      have x1 : 2 * (l : ℤ) + m - n - 2 * (l + m - a) = ((a + w : ℕ) : ℤ) := by omega
      have x2 : n - m + 2 * ((l : ℤ) + m - a) = ((u + v : ℕ) : ℤ) := by omega
      have x3 : (l : ℤ) + m - a = (u : ℕ) := by omega
      have x4 : n - m = (v : ℤ) - u := by omega
      rw [hlm, hlm', k1, k2, k3, k4, x1, x2, x3, x4, hw, show ((l : ℤ) + n).toNat - a = v by omega,
        show v + w - v = w by omega, hu,
        show a + u - a = u by omega]
      have f1 := Nat.add_choose_mul_factorial_mul_factorial a u
      have f2 := Nat.add_choose_mul_factorial_mul_factorial v w
      have g1 := Nat.choose_symm_add (a := a) (b := u)
      have g2 := Nat.choose_symm_add (a := v) (b := w)
      rw [← g1] at f1
      rw [← g2] at f2
      rw [← f1, ← f2, zpow_natCast, zpow_natCast, zpow_natCast, zpow_sub₀ (by norm_num),
        zpow_natCast, zpow_natCast, neg_pow s v]
      have q1 : ((-1 : ℝ)) ^ u ≠ 0 := pow_ne_zero _ (by norm_num)
      have p1 : (u.factorial : ℝ) ≠ 0 := by exact_mod_cast u.factorial_ne_zero
      have p2 : (v.factorial : ℝ) ≠ 0 := by exact_mod_cast v.factorial_ne_zero
      have p3 : (w.factorial : ℝ) ≠ 0 := by exact_mod_cast w.factorial_ne_zero
      have p4 : (a.factorial : ℝ) ≠ 0 := by exact_mod_cast a.factorial_ne_zero
      push_cast
      field_simp
      ring
  have hsq : ∀ k : ℤ, k.natAbs ≤ l →
      Real.sqrt (spFactorial ((l : ℤ) - k) * spFactorial (l + k)) = wt l k := by
    intro k hk
    rw [wt, mul_comm, spFactorial, spFactorial, if_neg (by omega), if_neg (by omega)]; rfl
  simp only [Dlmn]
  rw [hsq m hm, hsq n hn, bigD, smalld, dcs, ← hsum]
  generalize (∑ k ∈ Finset.Icc (max (m - n) 0) (min ((l : ℤ) + m) (l - n)),
      (-1 : ℝ) ^ k * Real.cos (beta / 2) ^ (2 * l + m - n - 2 * k)
        * Real.sin (beta / 2) ^ (n - m + 2 * k)
      / (spFactorial k * spFactorial (l + m - k))
      / (spFactorial (l - n - k) * spFactorial (n - m + k))) = Sm
  rw [← wt_sq, show -Complex.I * (alpha * n + gamma * m) =
    -Complex.I * n * alpha + -Complex.I * m * gamma by ring, Complex.exp_add]
  have : (wt l m : ℂ) ≠ 0 := by exact_mod_cast wt_ne l m
  push_cast
  field_simp

/-! ## rotations of the solid harmonics -/

theorem Nlm_wt (l : ℕ) (m : ℤ) : Nlm l m = Real.sqrt ((2 * l + 1) / (4 * Real.pi)) * wt l m := by
  rw [Nlm_fct, wt, Real.sqrt_mul (by have := Real.pi_pos; positivity)]

/-- Rotation about the z axis, on Cartesian components. -/
noncomputable def rz (t : ℝ) (v : V3) : V3 :=
  ![Real.cos t * v 0 - Real.sin t * v 1, Real.sin t * v 0 + Real.cos t * v 1, v 2]

/-- Rotation about the y axis, on Cartesian components. -/
noncomputable def ry (t : ℝ) (v : V3) : V3 :=
  ![Real.cos t * v 0 + Real.sin t * v 2, v 1, -Real.sin t * v 0 + Real.cos t * v 2]

theorem rotF_z (t : ℝ) (v : V3) : rotF t ![0, 0, 1] v = rz t v := by
  have hu : unitOf ![0, 0, 1] = ![0, 0, 1] := by
    funext i; fin_cases i <;> simp [unitOf, modulus]
  rw [rotF, hu, rotR_mulVec]
  funext i
  fin_cases i <;> simp [rz, crossProduct, Matrix.vecHead, Matrix.vecTail] <;> try ring

theorem rotF_y (t : ℝ) (v : V3) : rotF t ![0, 1, 0] v = ry t v := by
  have hu : unitOf ![0, 1, 0] = ![0, 1, 0] := by
    funext i; fin_cases i <;> simp [unitOf, modulus]
  rw [rotF, hu, rotR_mulVec]
  funext i
  fin_cases i <;> simp [ry, crossProduct, Matrix.vecHead, Matrix.vecTail] <;> try ring

theorem uPoly_rz (t : ℝ) (v : V3) :
    uPoly (rz t v) = C (Complex.exp (Complex.I * t)) *
      (uPoly v).comp (C (Complex.exp (-Complex.I * t)) * X) := by
  have e1 : Complex.exp (Complex.I * t) = Complex.cos t + Complex.sin t * Complex.I := by
    rw [mul_comm, Complex.exp_mul_I]
  have e2 : Complex.exp (-Complex.I * t) = Complex.cos t - Complex.sin t * Complex.I := by
    rw [show -Complex.I * t = (-t) * Complex.I by ring, Complex.exp_mul_I, Complex.cos_neg,
      Complex.sin_neg]; ring
  have hcs : Complex.cos t ^ 2 + Complex.sin t ^ 2 = 1 := Complex.cos_sq_add_sin_sq _
  have hI := Complex.I_sq
  rw [e1, e2]
  simp only [uPoly, rz, add_comp, mul_comp, pow_comp, X_comp, C_comp, Matrix.cons_val_zero,
    Matrix.cons_val_one, Matrix.cons_val_two, Matrix.tail_cons, Matrix.head_cons]
  push_cast
  generalize Complex.cos (t : ℂ) = c at *
  generalize Complex.sin (t : ℂ) = s at *
  generalize (v 0 : ℂ) = x
  generalize (v 1 : ℂ) = y
  generalize ((v 2 : ℝ) : ℂ) = z
  have k2 : -(c * x - s * y - Complex.I * (s * x + c * y)) / 2 =
      (c + s * Complex.I) * (-(x - Complex.I * y) / 2) * (c - s * Complex.I) ^ 2 := by
    linear_combination (x - Complex.I * y) / 2 * (c - s * Complex.I) * hcs
      - ((x - Complex.I * y) / 2 * (c - s * Complex.I) * s ^ 2 - s * y / 2) * hI
  have k1 : z = (c + s * Complex.I) * z * (c - s * Complex.I) := by
    linear_combination -z * hcs + z * s ^ 2 * hI
  have k0 : (c * x - s * y + Complex.I * (s * x + c * y)) / 2 =
      (c + s * Complex.I) * ((x + Complex.I * y) / 2) := by
    linear_combination -s * y / 2 * hI
  rw [k2, k0]
  conv_lhs => rw [k1]
  simp only [C_mul, C_pow]
  ring

theorem Rsol_rz (l : ℕ) (m : ℤ) (t : ℝ) (v : V3) :
    Rsol l m (rz t v) = Complex.exp (-Complex.I * m * t) * Rsol l m v := by
  by_cases hm : (l : ℤ) + m < 0
  · rw [Rsol, Rsol, zc_neg _ hm, zc_neg _ hm]; simp
  obtain ⟨k, hk⟩ := Int.eq_ofNat_of_zero_le (not_lt.1 hm)
  rw [Rsol, Rsol, hk, zc_nat, zc_nat, uPoly_rz, mul_pow, ← C_pow, ← pow_comp,
    coeff_C_mul, comp_C_mul_X_coeff, ← Complex.exp_nat_mul, ← Complex.exp_nat_mul]
  have hm' : (m : ℂ) = k - l := by
    have : m = (k : ℤ) - l := by omega
    rw [this]; push_cast; ring
  rw [hm', show -Complex.I * (k - l) * t = l * (Complex.I * t) + k * (-Complex.I * t) by ring,
    Complex.exp_add]
  ring

theorem uPoly_ry (t : ℝ) (v : V3) :
    uPoly (ry t v) = hom 2 (uPoly v) (C ((Real.cos (t / 2) : ℝ) : ℂ) * X + C ((Real.sin (t / 2) : ℝ) : ℂ))
      (C ((Real.cos (t / 2) : ℝ) : ℂ) - C ((Real.sin (t / 2) : ℝ) : ℂ) * X) := by
  have e1 : Real.cos t = Real.cos (t / 2) ^ 2 - Real.sin (t / 2) ^ 2 := by
    rw [← Real.cos_two_mul']; congr 1; ring
  have e2 : Real.sin t = 2 * Real.sin (t / 2) * Real.cos (t / 2) := by
    rw [← Real.sin_two_mul]; congr 1; ring
  have hcs : ((Real.cos (t / 2) : ℝ) : ℂ) ^ 2 + ((Real.sin (t / 2) : ℝ) : ℂ) ^ 2 = 1 := by
    exact_mod_cast Real.cos_sq_add_sin_sq (t / 2)
  have c0 : (uPoly v).coeff 0 = ((v 0 : ℂ) + Complex.I * v 1) / 2 := by simp [uPoly]
  have c1 : (uPoly v).coeff 1 = v 2 := by simp [uPoly, coeff_X, coeff_C]
  have c2 : (uPoly v).coeff 2 = -((v 0 : ℂ) - Complex.I * v 1) / 2 := by
    simp [uPoly, coeff_X, coeff_C]
  simp only [hom, Finset.sum_range_succ, Finset.sum_range_zero, c0, c1, c2]
  simp only [uPoly, ry, Matrix.cons_val_zero, Matrix.cons_val_one, Matrix.cons_val_two,
    Matrix.tail_cons, Matrix.head_cons]
  rw [e1, e2]
  push_cast at hcs ⊢
  generalize Complex.cos ((t : ℂ) / 2) = c at *
  generalize Complex.sin ((t : ℂ) / 2) = s at *
  generalize (v 0 : ℂ) = x
  generalize (v 1 : ℂ) = y
  generalize ((v 2 : ℝ) : ℂ) = z
  apply Polynomial.funext
  intro w
  simp only [eval_add, eval_mul, eval_sub, eval_pow, eval_C, eval_X, eval_zero]
  linear_combination -(Complex.I * y / 2) * (w ^ 2 + 1) * hcs

theorem Rsol_ry (l : ℕ) (a : ℤ) (ha : a.natAbs ≤ l) (t : ℝ) (v : V3) :
    Rsol l a (ry t v) = ∑ b ∈ Finset.Icc (-(l : ℤ)) l,
      ((wM (Real.cos (t / 2)) (Real.sin (t / 2)) (2 * l) (l + a).toNat (l + b).toNat : ℝ) : ℂ) *
        Rsol l b v := by
  have h : Rsol l a (ry t v) = (uPoly (ry t v) ^ l).coeff ((l : ℤ) + a).toNat / l.factorial := by
    rw [Rsol, zc, if_pos (by omega)]
  rw [h, uPoly_ry, ← hom_pow _ _ _ (uPoly_natDegree v), mul_comm l 2, coeff_hom, Finset.sum_div]
  symm
  refine Finset.sum_bij (fun (b : ℤ) _ => ((l : ℤ) + b).toNat) ?_ ?_ ?_ ?_
  · intro b hb; simp only [Finset.mem_range, Finset.mem_Icc] at *; omega
  · intro b hb b' hb' h; simp only [Finset.mem_Icc] at *; omega
  · intro j hj
    simp only [Finset.mem_range] at hj
    exact ⟨(j : ℤ) - l, by simp only [Finset.mem_Icc]; omega, by omega⟩
  · intro b hb
    rw [Finset.mem_Icc] at hb
    rw [Rsol, zc, if_pos (by omega)]
    have := wM_map Complex.ofRealHom (Real.cos (t / 2)) (Real.sin (t / 2)) (2 * l)
      ((l : ℤ) + a).toNat ((l : ℤ) + b).toNat
    simp only [Complex.ofRealHom_eq_coe] at this
    rw [← this, mul_div_assoc]

theorem solidS_rz (l : ℕ) (m : ℤ) (t : ℝ) (v : V3) :
    solidS l m (rz t v) = Complex.exp (-Complex.I * m * t) * solidS l m v := by
  rw [solidS, Rsol_rz, solidS]; ring

theorem solidS_ry (l : ℕ) (a : ℤ) (ha : a.natAbs ≤ l) (t : ℝ) (v : V3) :
    solidS l a (ry t v) = ∑ b ∈ Finset.Icc (-(l : ℤ)) l, ((smalld l t a b : ℝ) : ℂ) * solidS l b v := by
  rw [solidS, Rsol_ry l a ha, Finset.mul_sum]
  apply Finset.sum_congr rfl
  intro b hb
  rw [smalld, dcs, solidS, Nlm_wt, Nlm_wt]
  have : (wt l b : ℂ) ≠ 0 := by exact_mod_cast wt_ne l b
  push_cast
  field_simp

theorem solidS_rot (l : ℕ) (a : ℤ) (ha : a.natAbs ≤ l) (alpha beta gamma : ℝ) (v : V3) :
    solidS l a (rz alpha (ry beta (rz gamma v))) =
      ∑ b ∈ Finset.Icc (-(l : ℤ)) l, bigD l alpha beta gamma a b * solidS l b v := by
  rw [solidS_rz, solidS_ry l a ha, Finset.mul_sum]
  apply Finset.sum_congr rfl
  intro b _
  rw [solidS_rz, bigD]
  ring

end Newt
