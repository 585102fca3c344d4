import Verif.Proofs.Torque
import Mathlib.Algebra.Polynomial.Derivative

/-!
# Recurrence for the solid harmonics and their derivatives
-/

namespace Newt

open Polynomial Spec

theorem zc_X_mul' (p : ℂ[X]) (k : ℤ) : zc (X * p) k = zc p (k - 1) := by
  rcases lt_trichotomy k 0 with h | h | h
  · rw [zc_neg _ h, zc_neg _ (by omega)]
  · subst h; rw [zc_neg p (by omega)]; simp [zc]
  · obtain ⟨n, rfl⟩ : ∃ n : ℕ, k = n + 1 := ⟨(k - 1).toNat, by omega⟩
    rw [show ((n : ℤ) + 1) = ((n + 1 : ℕ) : ℤ) by push_cast; rfl, zc_nat, coeff_X_mul]
    push_cast
    rw [add_sub_cancel_right, zc_nat]

theorem zc_X_deriv (p : ℂ[X]) (k : ℤ) : zc (X * derivative p) k = k * zc p k := by
  rw [zc_X_mul']
  rcases lt_trichotomy k 0 with h | h | h
  · rw [zc_neg _ h, zc_neg _ (by omega), mul_zero]
  · subst h; rw [zc_neg _ (by omega)]; simp
  · obtain ⟨n, rfl⟩ : ∃ n : ℕ, k = n + 1 := ⟨(k - 1).toNat, by omega⟩
    rw [add_sub_cancel_right, zc_nat, coeff_derivative,
      show ((n : ℤ) + 1) = ((n + 1 : ℕ) : ℤ) by push_cast; rfl, zc_nat]
    push_cast; ring

theorem zc_sub (p q : ℂ[X]) (k : ℤ) : zc (p - q) k = zc p k - zc q k := by
  unfold zc; split_ifs <;> simp

/-- The polynomial identity behind the three-term recurrence. -/
theorem uPoly_rec (v : V3) (l : ℕ) :
    C (2 * ((l + 2 : ℕ) : ℂ)) * (X * derivative (uPoly v ^ (l + 2)))
        - X * derivative (X * derivative (uPoly v ^ (l + 2))) =
      C (((l + 2 : ℕ) : ℂ) * (2 * ((l + 2 : ℕ) : ℂ) - 1) * v 2) * (X * uPoly v ^ (l + 1))
        - C (((l + 2 : ℕ) : ℂ) * ((l + 1 : ℕ) : ℂ) * ((v 0 ^ 2 + v 1 ^ 2 + v 2 ^ 2 : ℝ) : ℂ)) *
          (X * (X * uPoly v ^ l)) := by
  have hu : derivative (uPoly v) = C (-((v 0 : ℂ) - Complex.I * v 1)) * X + C (v 2 : ℂ) := by
    simp only [uPoly, derivative_add, derivative_mul, derivative_C, derivative_X_pow, derivative_X, zero_mul,
      zero_add, mul_one, add_zero, Nat.cast_ofNat]
    rw [show (-((v 0 : ℂ) - Complex.I * v 1)) = -((v 0 : ℂ) - Complex.I * v 1) / 2 * 2 by ring, C_mul]
    simp only [Nat.add_one_sub_one, pow_one, map_ofNat]
    ring
  have hd1 : derivative (uPoly v ^ (l + 2)) = C ((l + 2 : ℕ) : ℂ) * uPoly v ^ (l + 1) * derivative (uPoly v) := by
    rw [derivative_pow]; simp
  have hd2 : derivative (uPoly v ^ (l + 1)) = C ((l + 1 : ℕ) : ℂ) * uPoly v ^ l * derivative (uPoly v) := by
    rw [derivative_pow]; simp
  have hd3 : derivative (derivative (uPoly v)) = C (-((v 0 : ℂ) - Complex.I * v 1)) := by
    rw [hu]; simp
  rw [hd1]
  simp only [derivative_mul, derivative_X, derivative_C, hd2, hd3, zero_mul, one_mul, zero_add]
  apply Polynomial.funext
  intro t
  have h1 : eval t (derivative (uPoly v)) = (-((v 0 : ℂ) - Complex.I * v 1)) * t + v 2 := by rw [hu]; simp
  have h0 : eval t (uPoly v) = -((v 0 : ℂ) - Complex.I * v 1) / 2 * t ^ 2 + v 2 * t
      + ((v 0 : ℂ) + Complex.I * v 1) / 2 := by simp [uPoly]
  simp only [eval_sub, eval_mul, eval_add, eval_C, eval_X, eval_pow, h1]
  rw [pow_succ]
  set E := eval t (uPoly v) ^ l
  rw [h0]
  push_cast
  have hI : Complex.I ^ 2 = -1 := Complex.I_sq
  ring_nf
  rw [hI]
  ring

/-- The three-term recurrence. -/
theorem Rsol_rec (l : ℕ) (m : ℤ) (v : V3) :
    (((l + 2 : ℕ) : ℂ) ^ 2 - (m : ℂ) ^ 2) * Rsol (l + 2) m v =
      (2 * ((l + 2 : ℕ) : ℂ) - 1) * v 2 * Rsol (l + 1) m v
        - ((v 0 ^ 2 + v 1 ^ 2 + v 2 ^ 2 : ℝ) : ℂ) * Rsol l m v := by
  have h := congrArg (fun p => zc p (((l + 2 : ℕ) : ℤ) + m)) (uPoly_rec v l)
  simp only [zc_sub, zc_C_mul, zc_X_deriv] at h
  rw [zc_X_mul', zc_X_mul', zc_X_mul'] at h
  rw [show (((l + 2 : ℕ) : ℤ) + m - 1) = ((l + 1 : ℕ) : ℤ) + m by push_cast; ring,
    show (((l + 1 : ℕ) : ℤ) + m - 1) = ((l : ℕ) : ℤ) + m by push_cast; ring] at h
  simp only [Rsol]
  have hf2 : (((l + 2).factorial : ℕ) : ℂ) = (l + 2) * ((l + 1) * l.factorial) := by
    rw [Nat.factorial_succ, Nat.factorial_succ]; push_cast; ring
  have hf1 : (((l + 1).factorial : ℕ) : ℂ) = (l + 1) * l.factorial := by
    rw [Nat.factorial_succ]; push_cast; ring
  rw [hf2, hf1]
  have h3 : (l.factorial : ℂ) ≠ 0 := by exact_mod_cast l.factorial_ne_zero
  have h1 : ((l : ℂ) + 1) ≠ 0 := by exact_mod_cast (by omega : l + 1 ≠ 0)
  have h2 : ((l : ℂ) + 2) ≠ 0 := by exact_mod_cast (by omega : l + 2 ≠ 0)
  push_cast at h ⊢
  field_simp
  linear_combination h

theorem Rsol_top (l : ℕ) (v : V3) :
    Rsol (l + 1) ((l + 1 : ℕ) : ℤ) v = -((v 0 : ℂ) - Complex.I * v 1) * Rsol l l v / (2 * ((l + 1 : ℕ) : ℂ)) := by
  have key : ∀ k : ℕ, zc (uPoly v ^ k) ((k : ℤ) + k) = (-((v 0 : ℂ) - Complex.I * v 1) / 2) ^ k := by
    intro k
    rw [show (k : ℤ) + k = ((2 * k : ℕ) : ℤ) by push_cast; ring, zc_nat, mul_comm,
      coeff_pow_of_natDegree_le (uPoly_natDegree v)]
    congr 1
    simp [uPoly, coeff_X]
  rw [Rsol, Rsol, key, key, Nat.factorial_succ, pow_succ]
  have h3 : (l.factorial : ℂ) ≠ 0 := by exact_mod_cast l.factorial_ne_zero
  have h1 : ((l : ℂ) + 1) ≠ 0 := by exact_mod_cast (by omega : l + 1 ≠ 0)
  push_cast
  field_simp

theorem Rsol_one_zero (v : V3) : Rsol 1 0 v = v 2 := by
  simp [Rsol, zc, uPoly]

/-- The recursion computes the solid harmonics. -/
theorem fbRows_yt (x y z : ℝ) : ∀ l : ℕ,
    (∀ m : ℕ, (fbRows x y z l).1.yt m = Rsol l m ![x, y, z]) ∧
    (∀ m : ℕ, (fbRows x y z l).2.yt m = if l = 0 then 0 else Rsol (l - 1) m ![x, y, z]) := by
  intro l
  induction l with
  | zero =>
    refine ⟨fun m => ?_, fun m => ?_⟩
    · simp only [fbRows, FBRow.init]
      split_ifs with h
      · subst h; exact (Rsol_zero_zero _).symm
      · rw [Rsol_out' _ _ _ (by omega)]
    · simp [fbRows, FBRow.zero]
  | succ l ih =>
    refine ⟨fun m => ?_, fun m => by simp [fbRows, ih.1]⟩
    simp only [fbRows, fbStep]
    by_cases hm : m = l + 1
    · rw [if_pos hm, hm, ih.1, Rsol_top]
      simp
    · rw [if_neg hm]
      by_cases hl : l = 0
      · subst hl
        simp only [zero_add, if_true]
        split_ifs with h0
        · subst h0; rw [ih.1]
          simp [Rsol_zero_zero, Rsol_one_zero]; ring
        · rw [Rsol_out' _ _ _ (by omega)]
      · rw [if_neg (by omega)]
        split_ifs with hlt
        · obtain ⟨k, rfl⟩ : ∃ k, l = k + 1 := ⟨l - 1, by omega⟩
          rw [ih.1, ih.2, if_neg (by omega), Nat.add_sub_cancel]
          have h := Rsol_rec k m ![x, y, z]
          have hne : (((k + 2 : ℕ) : ℂ) ^ 2 - ((m : ℤ) : ℂ) ^ 2) ≠ 0 := by
            have : (((k + 2 : ℕ) : ℤ) ^ 2 - (m : ℤ) ^ 2) ≠ 0 := by
              have : (m : ℤ) < ((k + 2 : ℕ) : ℤ) := by omega
              have : (0 : ℤ) ≤ m := by omega
              nlinarith
            exact_mod_cast this
          symm
          have e : Rsol (k + 1 + 1) m ![x, y, z] = Rsol (k + 2) m ![x, y, z] := rfl
          rw [e]
          push_cast at h hne ⊢
          rw [eq_div_iff (by convert hne using 2 <;> push_cast <;> ring)]
          linear_combination h
        · rw [Rsol_out' _ _ _ (by omega)]

theorem ofReal_deriv (x : ℝ) : HasDerivAt (fun t : ℝ => (t : ℂ)) 1 x :=
  HasDerivAt.ofReal_comp (hasDerivAt_id x)

theorem fb_dX (y z : ℝ) (x : ℝ) : ∀ l : ℕ,
    (∀ m : ℕ, HasDerivAt (fun t => (fbRows t y z l).1.yt m) ((fbRows x y z l).1.bX m) x) ∧
    (∀ m : ℕ, HasDerivAt (fun t => (fbRows t y z l).2.yt m) ((fbRows x y z l).2.bX m) x) := by
  intro l
  induction l with
  | zero =>
    exact ⟨fun m => by simp only [fbRows, FBRow.init]; exact hasDerivAt_const _ _,
      fun m => by simp only [fbRows, FBRow.zero]; exact hasDerivAt_const _ _⟩
  | succ l ih =>
    refine ⟨fun m => ?_, fun m => by simpa only [fbRows] using ih.1 m⟩
    simp only [fbRows, fbStep, Nat.add_sub_cancel]
    by_cases hm : m = l + 1
    · simp only [if_pos hm]
      have h1 := ((((ofReal_deriv x).sub_const (Complex.I * y)).neg.mul (ih.1 l)).div_const (2 * ((l + 1 : ℕ) : ℂ)))
      refine h1.congr_deriv ?_
      simp only [Pi.neg_apply]
      ring
    · simp only [if_neg hm]
      by_cases hl : l + 1 = 1
      · simp only [if_pos hl]
        split_ifs with h0
        · exact ((ih.1 0).const_mul _).div_const _
        · exact hasDerivAt_const _ _
      · simp only [if_neg hl]
        split_ifs with hlt
        · have hr : HasDerivAt (fun t : ℝ => ((t ^ 2 + y ^ 2 + z ^ 2 : ℝ) : ℂ)) (2 * x) x := by
            have : HasDerivAt (fun t : ℝ => t ^ 2 + y ^ 2 + z ^ 2) (2 * x) x :=
              (((hasDerivAt_pow 2 x).add_const (y ^ 2)).add_const (z ^ 2)).congr_deriv (by simp)
            simpa using this.ofReal_comp
          refine ((((ih.1 m).const_mul _).sub (hr.mul (ih.2 m))).div_const _).congr_deriv ?_
          ring
        · exact hasDerivAt_const _ _

theorem fb_dY (x z : ℝ) (y : ℝ) : ∀ l : ℕ,
    (∀ m : ℕ, HasDerivAt (fun t => (fbRows x t z l).1.yt m) ((fbRows x y z l).1.bY m) y) ∧
    (∀ m : ℕ, HasDerivAt (fun t => (fbRows x t z l).2.yt m) ((fbRows x y z l).2.bY m) y) := by
  intro l
  induction l with
  | zero =>
    exact ⟨fun m => by simp only [fbRows, FBRow.init]; exact hasDerivAt_const _ _,
      fun m => by simp only [fbRows, FBRow.zero]; exact hasDerivAt_const _ _⟩
  | succ l ih =>
    refine ⟨fun m => ?_, fun m => by simpa only [fbRows] using ih.1 m⟩
    simp only [fbRows, fbStep, Nat.add_sub_cancel]
    by_cases hm : m = l + 1
    · simp only [if_pos hm]
      have h1 := ((((ofReal_deriv y).const_mul Complex.I).const_sub (x : ℂ)).neg.mul (ih.1 l)).div_const
        (2 * ((l + 1 : ℕ) : ℂ))
      refine h1.congr_deriv ?_
      simp only [Pi.neg_apply]
      ring
    · simp only [if_neg hm]
      by_cases hl : l + 1 = 1
      · simp only [if_pos hl]
        split_ifs with h0
        · exact ((ih.1 0).const_mul _).div_const _
        · exact hasDerivAt_const _ _
      · simp only [if_neg hl]
        split_ifs with hlt
        · have hr : HasDerivAt (fun t : ℝ => ((x ^ 2 + t ^ 2 + z ^ 2 : ℝ) : ℂ)) (2 * y) y := by
            have : HasDerivAt (fun t : ℝ => x ^ 2 + t ^ 2 + z ^ 2) (2 * y) y :=
              (((hasDerivAt_pow 2 y).const_add (x ^ 2)).add_const (z ^ 2)).congr_deriv (by simp)
            simpa using this.ofReal_comp
          refine ((((ih.1 m).const_mul _).sub (hr.mul (ih.2 m))).div_const _).congr_deriv ?_
          ring
        · exact hasDerivAt_const _ _

theorem fb_dZ (x y : ℝ) (z : ℝ) : ∀ l : ℕ,
    (∀ m : ℕ, HasDerivAt (fun t => (fbRows x y t l).1.yt m) ((fbRows x y z l).1.bZ m) z) ∧
    (∀ m : ℕ, HasDerivAt (fun t => (fbRows x y t l).2.yt m) ((fbRows x y z l).2.bZ m) z) := by
  intro l
  induction l with
  | zero =>
    exact ⟨fun m => by simp only [fbRows, FBRow.init]; exact hasDerivAt_const _ _,
      fun m => by simp only [fbRows, FBRow.zero]; exact hasDerivAt_const _ _⟩
  | succ l ih =>
    refine ⟨fun m => ?_, fun m => by simpa only [fbRows] using ih.1 m⟩
    simp only [fbRows, fbStep, Nat.add_sub_cancel]
    by_cases hm : m = l + 1
    · simp only [if_pos hm]
      refine (((ih.1 l).const_mul _).div_const _).congr_deriv ?_
      ring
    · simp only [if_neg hm]
      by_cases hl : l + 1 = 1
      · simp only [if_pos hl]
        split_ifs with h0
        · refine ((((ofReal_deriv z).const_mul _).mul (ih.1 0)).div_const _).congr_deriv ?_
          ring
        · exact hasDerivAt_const _ _
      · simp only [if_neg hl]
        split_ifs with hlt
        · have hr : HasDerivAt (fun t : ℝ => ((x ^ 2 + y ^ 2 + t ^ 2 : ℝ) : ℂ)) (2 * z) z := by
            have : HasDerivAt (fun t : ℝ => x ^ 2 + y ^ 2 + t ^ 2) (2 * z) z :=
              ((hasDerivAt_pow 2 z).const_add (x ^ 2 + y ^ 2)).congr_deriv (by simp)
            simpa using this.ofReal_comp
          refine (((((ofReal_deriv z).const_mul _).mul (ih.1 m)).sub (hr.mul (ih.2 m))).div_const _).congr_deriv ?_
          ring
        · exact hasDerivAt_const _ _

/-- Partial derivatives of the solid harmonics. -/
theorem Rsol_dX (x y z : ℝ) (l m : ℕ) :
    HasDerivAt (fun t => Rsol l m ![t, y, z]) ((fbRows x y z l).1.bX m) x := by
  have h := (fb_dX y z x l).1 m
  simpa only [(fbRows_yt _ _ _ l).1] using h

theorem Rsol_dY (x y z : ℝ) (l m : ℕ) :
    HasDerivAt (fun t => Rsol l m ![x, t, z]) ((fbRows x y z l).1.bY m) y := by
  have h := (fb_dY x z y l).1 m
  simpa only [(fbRows_yt _ _ _ l).1] using h

theorem Rsol_dZ (x y z : ℝ) (l m : ℕ) :
    HasDerivAt (fun t => Rsol l m ![x, y, t]) ((fbRows x y z l).1.bZ m) z := by
  have h := (fb_dZ x y z l).1 m
  simpa only [(fbRows_yt _ _ _ l).1] using h

/-- The recursion at the origin is the special case of lines 25-28. -/
theorem fb_origin (l : ℕ) (m : ℕ) :
    (fbRows 0 0 0 l).1.bX m = (if l = 1 ∧ m = 1 then -1 / 2 else 0) ∧
    (fbRows 0 0 0 l).1.bY m = (if l = 1 ∧ m = 1 then Complex.I / 2 else 0) ∧
    (fbRows 0 0 0 l).1.bZ m = (if l = 1 ∧ m = 0 then 1 else 0) := by
  have hyt : ∀ l m : ℕ, l ≠ 0 → (fbRows 0 0 0 l).1.yt m = 0 := by
    intro l m hl
    rw [(fbRows_yt 0 0 0 l).1]
    have : (![0, 0, 0] : V3) = 0 := by funext i; fin_cases i <;> rfl
    rw [this, Rsol_at_zero l hl]
  have hyt0 : (fbRows 0 0 0 0).1.yt 0 = 1 := by simp [fbRows, FBRow.init]
  match l with
  | 0 => simp [fbRows, FBRow.init]
  | 1 =>
    simp only [fbRows, fbStep, FBRow.init, FBRow.zero]
    refine ⟨?_, ?_, ?_⟩
    · by_cases h : m = 1
      · simp [h]
      · simp [h]
    · by_cases h : m = 1
      · simp [h]
      · simp [h]
    · by_cases h : m = 1
      · simp [h]
      · by_cases h0 : m = 0
        · simp [h0]; norm_num
        · simp [h, h0]
  | l + 2 =>
    have h1 : (fbRows 0 0 0 (l + 1)).1.yt (l + 1) = 0 := hyt _ _ (by omega)
    have h1' : (fbRows 0 0 0 (l + 1)).1.yt m = 0 := hyt _ _ (by omega)
    have e1 : ¬ (l + 2 = 1 ∧ m = 1) := by omega
    have e0 : ¬ (l + 2 = 1 ∧ m = 0) := by omega
    rw [if_neg e1, if_neg e1, if_neg e0]
    rw [show fbRows 0 0 0 (l + 2) = (fbStep 0 0 0 (l + 1 + 1) (fbRows 0 0 0 (l + 1)).1 (fbRows 0 0 0 (l + 1)).2,
      (fbRows 0 0 0 (l + 1)).1) from rfl]
    simp only [fbStep]
    refine ⟨?_, ?_, ?_⟩ <;> split_ifs <;> simp [h1, h1'] <;> omega

theorem conj_deriv {f : ℝ → ℂ} {f' : ℂ} {x : ℝ} (h : HasDerivAt f f' x) :
    HasDerivAt (fun t => (starRingEnd ℂ) (f t)) ((starRingEnd ℂ) f') x :=
  (Complex.conjCLE.toContinuousLinearMap.hasFDerivAt.comp_hasDerivAt x h)

theorem fill_spec (L : ℕ) (f : ℕ → ℕ → ℂ) (cv : ℝ → V3) (t0 : ℝ)
    (h : ∀ p m : ℕ, HasDerivAt (fun t => Rsol p m (cv t)) (f p m) t0) (p : ℕ) (c : ℤ) (hp : p ≤ L)
    (hc : c.natAbs ≤ p) :
    HasDerivAt (fun t => Rsol p c (cv t)) ((momOfRows L f).fillNeg.get p c) t0 := by
  have hg : ∀ k : ℤ, k.natAbs ≤ p → (momOfRows L f).get p k = if 0 ≤ k then f p k.toNat else 0 := by
    intro k hk
    rw [momOfRows, Mom.get_ofFn _ hp (by omega)]
    by_cases h0 : 0 ≤ k
    · rw [if_pos ⟨h0, by omega⟩, if_pos h0]
    · rw [if_neg (fun e => h0 e.1), if_neg h0]
  rw [Mom.get_fillNeg _ hp (by omega)]
  simp only []
  rw [hg c hc, hg (-c) (by omega)]
  rcases lt_trichotomy c 0 with h0 | h0 | h0
  · rw [if_neg (by omega), if_neg (by omega), if_pos (by omega), zero_add]
    obtain ⟨n, rfl⟩ : ∃ n : ℕ, c = -(n : ℤ) := ⟨(-c).toNat, by omega⟩
    simp only [Rsol_neg']
    refine ((conj_deriv (h p n)).const_mul ((-1) ^ (n : ℤ).natAbs)).congr_deriv ?_
    simp; ring
  · subst h0
    have h1 := h p 0
    have h2 := conj_deriv h1
    have h3 : ∀ t, (starRingEnd ℂ) (Rsol p ((0 : ℕ) : ℤ) (cv t)) = Rsol p ((0 : ℕ) : ℤ) (cv t) := by
      intro t
      have := Rsol_neg' p 0 (cv t)
      simpa using this.symm
    simp only [h3] at h2
    have h4 := h2.unique h1
    simp only [if_true, neg_zero, le_refl, Int.toNat_zero, Int.natAbs_zero, pow_zero, mul_one]
    rw [h4]
    refine h1.congr_deriv ?_
    ring
  · rw [if_neg (by omega), if_pos (by omega), if_neg (by omega)]
    obtain ⟨n, rfl⟩ : ∃ n : ℕ, c = (n : ℤ) := ⟨c.toNat, by omega⟩
    refine (h p n).congr_deriv ?_
    simp

/-- What `force_basis` computes: the partial derivatives of the solid harmonics. -/
theorem force_basis_spec (L : ℕ) (d : V3) (h : 1 ≤ L ∨ d ≠ 0) :
    ∃ b : Fin 3 → Mom L, force_basis L (d 0) (d 1) (d 2) = some (b 0, b 1, b 2) ∧
      ∀ (i : Fin 3) (p : ℕ) (c : ℤ), p ≤ L → c.natAbs ≤ p →
        HasDerivAt (fun t => Rsol p c (Function.update d i t)) ((b i).get p c) (d i) := by
  refine ⟨![(momOfRows L fun l => (fbRows (d 0) (d 1) (d 2) l).1.bX).fillNeg,
     (momOfRows L fun l => (fbRows (d 0) (d 1) (d 2) l).1.bY).fillNeg,
     (momOfRows L fun l => (fbRows (d 0) (d 1) (d 2) l).1.bZ).fillNeg], ?_, ?_⟩
  · rw [force_basis]
    by_cases h0 : d 0 = 0 ∧ d 1 = 0 ∧ d 2 = 0
    · have hd : d = 0 := by funext i; fin_cases i; exacts [h0.1, h0.2.1, h0.2.2]
      have hL : 1 ≤ L := h.resolve_right (fun e => e hd)
      rw [if_pos h0, if_neg (by omega), Option.some.injEq]
      rw [h0.1, h0.2.1, h0.2.2]
      have e : ∀ (f : ℕ → ℕ → ℂ) (g : ℕ → ℤ → ℂ),
          (∀ (l : ℕ) (m : ℤ), g l m = if 0 ≤ m ∧ m ≤ l then f l m.toNat else 0) →
          (Mom.ofFn L g).fillNeg = (momOfRows L f).fillNeg := by
        intro f g hfg
        congr 1
        rw [momOfRows]
        congr 1
        funext l m
        exact hfg l m
      simp only [Matrix.cons_val]
      rw [Prod.mk.injEq, Prod.mk.injEq]
      refine ⟨e _ _ ?_, e _ _ ?_, e _ _ ?_⟩
      · intro l m
        rw [(fb_origin l m.toNat).1]
        by_cases h1 : l = 1 ∧ m = 1
        · rw [h1.1, h1.2]; simp
        · rw [if_neg h1]
          split_ifs with a b
          · omega
          · rfl
          · rfl
      · intro l m
        rw [(fb_origin l m.toNat).2.1]
        by_cases h1 : l = 1 ∧ m = 1
        · rw [h1.1, h1.2]; simp
        · rw [if_neg h1]
          split_ifs with a b
          · omega
          · rfl
          · rfl
      · intro l m
        rw [(fb_origin l m.toNat).2.2]
        by_cases h1 : l = 1 ∧ m = 0
        · rw [h1.1, h1.2]; simp
        · rw [if_neg h1]
          split_ifs with a b
          · omega
          · rfl
          · rfl
    · rw [if_neg h0]
      rfl
  · intro i p c hp hc
    have hu0 : ∀ t, Function.update d 0 t = ![t, d 1, d 2] := by
      intro t; funext j; fin_cases j <;> simp [Function.update]
    have hu1 : ∀ t, Function.update d 1 t = ![d 0, t, d 2] := by
      intro t; funext j; fin_cases j <;> simp [Function.update]
    have hu2 : ∀ t, Function.update d 2 t = ![d 0, d 1, t] := by
      intro t; funext j; fin_cases j <;> simp [Function.update]
    fin_cases i
    · simp only [Fin.zero_eta, hu0]
      exact fill_spec L _ (fun t => ![t, d 1, d 2]) _ (fun p m => Rsol_dX _ _ _ p m) p c hp hc
    · simp only [Fin.mk_one, hu1]
      exact fill_spec L _ (fun t => ![d 0, t, d 2]) _ (fun p m => Rsol_dY _ _ _ p m) p c hp hc
    · simp only [Fin.reduceFinMk, hu2]
      exact fill_spec L _ (fun t => ![d 0, d 1, t]) _ (fun p m => Rsol_dZ _ _ _ p m) p c hp hc

/-- The numerical factor of the loops. -/
theorem forceFac_eq {L : ℕ} (q Q : Mom L) (G : ℝ) (lo : ℕ) (mo : ℤ) (l : ℕ) (m : ℤ) (h1 : mo.natAbs ≤ lo)
    (h2 : m.natAbs ≤ l) :
    forceFac q Q G lo mo l m = ((4 * Real.pi * G : ℝ) : ℂ) *
      ((Nlm l m : ℂ) * Q.get l m / (2 * l + 1) * (q.get lo mo / (Nlm lo mo : ℂ))) := by
  have key : Real.sqrt ((2 * l + 1) / (2 * lo + 1)) * Real.sqrt (Real.exp (gammaln (l + m + 1) + gammaln (l - m + 1)
      - (gammaln (lo + mo + 1) + gammaln (lo - mo + 1)))) = Nlm l m / Nlm lo mo := by
    rw [Real.exp_sub, Real.exp_add, Real.exp_add,
      exp_gammaln (l + m + 1) (l + m) (by omega) (by push_cast; ring),
      exp_gammaln (l - m + 1) (l - m) (by omega) (by push_cast; ring),
      exp_gammaln (lo + mo + 1) (lo + mo) (by omega) (by push_cast; ring),
      exp_gammaln (lo - mo + 1) (lo - mo) (by omega) (by push_cast; ring), Nlm_fct, Nlm_fct]
    have p1 := fct_pos ((l : ℤ) + m)
    have p2 := fct_pos ((l : ℤ) - m)
    have p3 := fct_pos ((lo : ℤ) + mo)
    have p4 := fct_pos ((lo : ℤ) - mo)
    have hpi := Real.pi_pos
    rw [← Real.sqrt_mul (by positivity), ← Real.sqrt_div (by positivity)]
    congr 1
    field_simp
  rw [forceFac]
  have h3 : ((Real.sqrt ((2 * l + 1) / (2 * lo + 1)) : ℝ) : ℂ) *
      ((Real.sqrt (Real.exp (gammaln (l + m + 1) + gammaln (l - m + 1)
      - (gammaln (lo + mo + 1) + gammaln (lo - mo + 1)))) : ℝ) : ℂ) = (Nlm l m : ℂ) / (Nlm lo mo : ℂ) := by
    rw [← Complex.ofReal_mul, key, Complex.ofReal_div]
  calc _ = Q.get l m * (q.get lo mo * ((4 * Real.pi * G : ℝ) : ℂ) / ((2 * l + 1 : ℝ) : ℂ)) *
        (((Real.sqrt ((2 * l + 1) / (2 * lo + 1)) : ℝ) : ℂ) *
      ((Real.sqrt (Real.exp (gammaln (l + m + 1) + gammaln (l - m + 1)
      - (gammaln (lo + mo + 1) + gammaln (lo - mo + 1)))) : ℝ) : ℂ)) := by ring
    _ = _ := by
      rw [h3]; push_cast; ring

/-- One force component as a sum in the order of the energy. -/
theorem forceComp_eq {L : ℕ} (q Q b : Mom L) (G : ℝ) (hb : b.get 0 0 = 0) :
    forceComp q Q b G = ((4 * Real.pi * G : ℝ) : ℂ) *
      ∑ l ∈ Finset.range (L + 1), ∑ m ∈ Finset.Icc (-(l : ℤ)) l, ∑ k ∈ Finset.range (l + 1),
        ∑ n ∈ Finset.Icc (-(k : ℤ)) k, (if (m - n).natAbs ≤ l - k then b.get (l - k) (m - n) else 0) *
          ((Nlm l m : ℂ) * Q.get l m / (2 * l + 1) * (q.get k n / (Nlm k n : ℂ))) := by
  -- the summand
  set T : ℕ → ℤ → ℕ → ℤ → ℂ := fun l m k n =>
    (if (m - n).natAbs ≤ l - k then b.get (l - k) (m - n) else 0) *
          ((Nlm l m : ℂ) * Q.get l m / (2 * l + 1) * (q.get k n / (Nlm k n : ℂ))) with hT
  have h1 : ∀ k ∈ Finset.range (L + 1), ∀ n ∈ Finset.Icc (-(k : ℤ)) k,
      forceTerm q Q b G k n = ((4 * Real.pi * G : ℝ) : ℂ) *
        ∑ l ∈ Finset.Icc k L, ∑ m ∈ Finset.Icc (-(l : ℤ)) l, T l m k n := by
    intro k hk n hn
    rw [Finset.mem_range] at hk
    rw [Finset.mem_Icc] at hn
    have hsub : Finset.Icc (k + 1) L ⊆ Finset.Icc k L := Finset.Icc_subset_Icc (by omega) le_rfl
    rw [forceTerm, ← Finset.sum_subset hsub]
    · rw [Finset.mul_sum]
      apply Finset.sum_congr rfl
      intro l hl
      rw [Finset.mem_Icc] at hl
      have hsub2 : Finset.Icc (n - ((l - k : ℕ) : ℤ)) (n + ((l - k : ℕ) : ℤ)) ⊆ Finset.Icc (-(l : ℤ)) l :=
        Finset.Icc_subset_Icc (by omega) (by omega)
      rw [← Finset.sum_subset hsub2, Finset.mul_sum]
      · apply Finset.sum_congr rfl
        intro m hm
        rw [Finset.mem_Icc] at hm
        rw [forceFac_eq q Q G k n l m (by omega) (by omega), hT]
        simp only []
        rw [if_pos (by omega)]
        ring
      · intro m hm hm'
        rw [Finset.mem_Icc] at hm hm'
        rw [hT]; simp only []
        rw [if_neg (by omega), zero_mul]
    · intro l hl hl'
      rw [Finset.mem_Icc] at hl hl'
      have : l = k := by omega
      subst this
      apply Finset.sum_eq_zero
      intro m hm
      rw [hT]; simp only []
      split_ifs with h
      · have : m - n = 0 := by omega
        rw [this, Nat.sub_self, hb, zero_mul]
      · rw [zero_mul]
  rw [forceComp, Finset.sum_congr rfl fun k hk => Finset.sum_congr rfl (h1 k hk)]
  simp only [← Finset.mul_sum]
  congr 1
  have h2 : ∀ l ∈ Finset.range (L + 1), ∑ m ∈ Finset.Icc (-(l : ℤ)) l, ∑ k ∈ Finset.range (l + 1),
      ∑ n ∈ Finset.Icc (-(k : ℤ)) k, T l m k n =
      ∑ k ∈ Finset.range (l + 1), ∑ n ∈ Finset.Icc (-(k : ℤ)) k, ∑ m ∈ Finset.Icc (-(l : ℤ)) l, T l m k n := by
    intro l hl
    rw [Finset.sum_comm]
    apply Finset.sum_congr rfl
    intro k hk
    rw [Finset.sum_comm]
  rw [Finset.sum_congr rfl h2]
  have h3 : ∀ k ∈ Finset.range (L + 1), ∑ n ∈ Finset.Icc (-(k : ℤ)) k, ∑ l ∈ Finset.Icc k L,
      ∑ m ∈ Finset.Icc (-(l : ℤ)) l, T l m k n =
      ∑ l ∈ Finset.Icc k L, ∑ n ∈ Finset.Icc (-(k : ℤ)) k, ∑ m ∈ Finset.Icc (-(l : ℤ)) l, T l m k n :=
    fun k _ => Finset.sum_comm
  rw [Finset.sum_congr rfl h3]
  apply Finset.sum_comm'
  intro k l
  simp only [Finset.mem_range, Finset.mem_Icc]
  omega

/-- Derivative of the pair sum under translation along one coordinate. -/
theorem pairSum_translate_deriv {L : ℕ} (q Q : Mom L) (hq : Valid q) (d : V3) (i : Fin 3) (b : Mom L) (G : ℝ)
    (hb : ∀ (p : ℕ) (c : ℤ), p ≤ L → c.natAbs ≤ p →
      HasDerivAt (fun t => Rsol p c (Function.update d i t)) (b.get p c) (d i)) :
    HasDerivAt (fun t => ((4 * Real.pi * G : ℝ) : ℂ) * pairSum (translate_qlm q (Function.update d i t)) Q)
      (forceComp q Q b G) (d i) := by
  have hb0 : b.get 0 0 = 0 := by
    have h1 := hb 0 0 (by omega) (by simp)
    simp only [Rsol_zero_zero] at h1
    exact h1.unique (hasDerivAt_const _ _)
  rw [forceComp_eq q Q b G hb0]
  apply HasDerivAt.const_mul
  have hE : ∀ t, pairSum (translate_qlm q (Function.update d i t)) Q =
      ∑ l ∈ Finset.range (L + 1), ∑ m ∈ Finset.Icc (-(l : ℤ)) l, ∑ k ∈ Finset.range (l + 1),
        ∑ n ∈ Finset.Icc (-(k : ℤ)) k, Rsol (l - k) (m - n) (Function.update d i t) *
          ((Nlm l m : ℂ) * Q.get l m / (2 * l + 1) * (q.get k n / (Nlm k n : ℂ))) := by
    intro t
    rw [translate_qlm_closed q hq, pairSum]
    apply Finset.sum_congr rfl
    intro l hl
    rw [Finset.mem_range] at hl
    apply Finset.sum_congr rfl
    intro m hm
    rw [Finset.mem_Icc] at hm
    rw [Mom.get_ofFn _ (by omega) (by omega), trInner, mul_assoc, mul_div_assoc, Finset.sum_mul, Finset.sum_div,
      Finset.mul_sum]
    apply Finset.sum_congr rfl
    intro k hk
    rw [Finset.sum_mul, Finset.sum_div, Finset.mul_sum]
    apply Finset.sum_congr rfl
    intro n hn
    ring
  simp only [hE]
  refine HasDerivAt.fun_sum fun l hl => HasDerivAt.fun_sum fun m hm => HasDerivAt.fun_sum fun k hk =>
    HasDerivAt.fun_sum fun n hn => ?_
  rw [Finset.mem_range] at hl hk
  rw [Finset.mem_Icc] at hm hn
  apply HasDerivAt.mul_const
  split_ifs with h
  · exact hb _ _ (by omega) h
  · simp only [Rsol_out' _ _ _ (not_le.1 h)]
    exact hasDerivAt_const _ _

end Newt
