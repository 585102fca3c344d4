import Verif.Proofs.Solid
import Mathlib.Algebra.Polynomial.Homogenize
import Mathlib.Algebra.Polynomial.Derivative
import Mathlib.Data.Nat.Choose.Basic

/-! # The polynomial realisation of the rotations: `wp c s N j = (cX+s)^j (c-sX)^(N-j)` -/

namespace Newt

open Polynomial

variable {R : Type*} [CommRing R]

/-- Homogeneous substitution. -/
noncomputable def hom (N : ℕ) (p : R[X]) (x y : R[X]) : R[X] :=
  ∑ k ∈ Finset.range (N + 1), C (p.coeff k) * x ^ k * y ^ (N - k)

theorem hom_eq (N : ℕ) (p x y : R[X]) :
    hom N p x y = MvPolynomial.aeval ![x, y] (p.homogenize N) := by
  rw [hom, homogenize, map_sum, Finset.Nat.sum_antidiagonal_eq_sum_range_succ_mk]
  apply Finset.sum_congr rfl
  intro k hk
  rw [MvPolynomial.aeval_monomial, Finsupp.update_eq_add_single (by simp), Finsupp.prod_add_index',
    Finsupp.prod_single_index, Finsupp.prod_single_index]
  · simp only [Matrix.cons_val_zero, Matrix.cons_val_one, ← C_eq_algebraMap]
    ring
  · simp
  · simp
  · simp
  · intros; rw [pow_add]

theorem hom_mul {N M : ℕ} (p q x y : R[X]) (hp : p.natDegree ≤ N) (hq : q.natDegree ≤ M) :
    hom (N + M) (p * q) x y = hom N p x y * hom M q x y := by
  rw [hom_eq, hom_eq, hom_eq, homogenize_mul _ _ hp hq, map_mul]

theorem hom_pow {N : ℕ} (p x y : R[X]) (hp : p.natDegree ≤ N) (k : ℕ) :
    hom (k * N) (p ^ k) x y = hom N p x y ^ k := by
  induction k with
  | zero => simp [hom]
  | succ k ih =>
    rw [pow_succ, pow_succ, ← ih, Nat.succ_mul]
    exact hom_mul _ _ _ _ (natDegree_pow_le_of_le k hp) hp

/-- The rotated monomials. -/
noncomputable def wp (c s : R) (N j : ℕ) : R[X] := (C c * X + C s) ^ j * (C c - C s * X) ^ (N - j)

/-- Matrix of the rotation on homogeneous polynomials of degree `N`. -/
noncomputable def wM (c s : R) (N i j : ℕ) : R := (wp c s N j).coeff i

theorem lin1_deg (c s : R) : (C c * X + C s : R[X]).natDegree ≤ 1 := by compute_degree
theorem lin2_deg (c s : R) : (C c - C s * X : R[X]).natDegree ≤ 1 := by compute_degree

theorem wp_deg (c s : R) {N j : ℕ} (hj : j ≤ N) : (wp c s N j).natDegree ≤ N := by
  have h1 := natDegree_pow_le_of_le j (lin1_deg c s)
  have h2 := natDegree_pow_le_of_le (N - j) (lin2_deg c s)
  refine (natDegree_mul_le_of_le h1 h2).trans ?_
  omega

theorem wM_out (c s : R) {N i j : ℕ} (hj : j ≤ N) (hi : N < i) : wM c s N i j = 0 :=
  coeff_eq_zero_of_natDegree_lt ((wp_deg c s hj).trans_lt hi)

theorem hom_lin1 (c s : R) (x y : R[X]) : hom 1 (C c * X + C s) x y = C c * x + C s * y := by
  simp [hom, Finset.sum_range_succ, coeff_C, coeff_X]; ring

theorem hom_lin2 (c s : R) (x y : R[X]) : hom 1 (C c - C s * X) x y = C c * y - C s * x := by
  simp [hom, Finset.sum_range_succ, coeff_C, coeff_X]; ring

theorem hom_wp (c s : R) {N j : ℕ} (hj : j ≤ N) (x y : R[X]) :
    hom N (wp c s N j) x y = (C c * x + C s * y) ^ j * (C c * y - C s * x) ^ (N - j) := by
  have h1 := natDegree_pow_le_of_le j (lin1_deg c s)
  have h2 := natDegree_pow_le_of_le (N - j) (lin2_deg c s)
  have h := hom_mul _ _ x y h1 h2
  rw [hom_pow _ _ _ (lin1_deg c s), hom_pow _ _ _ (lin2_deg c s), hom_lin1, hom_lin2] at h
  rw [← h, wp]
  congr 1; omega

/-- Substituting the two rotated variables is multiplying by the matrix. -/
theorem coeff_hom (c s : R) (N i : ℕ) (p : R[X]) :
    (hom N p (C c * X + C s) (C c - C s * X)).coeff i =
      ∑ j ∈ Finset.range (N + 1), wM c s N i j * p.coeff j := by
  rw [hom, finset_sum_coeff]
  apply Finset.sum_congr rfl
  intro j _
  rw [mul_assoc, coeff_C_mul, mul_comm, wM, wp]

/-- Composition of rotations. -/
theorem wM_mul (c s c' s' : R) (N i k : ℕ) (hk : k ≤ N) :
    ∑ j ∈ Finset.range (N + 1), wM c s N i j * wM c' s' N j k =
      wM (c * c' - s * s') (s * c' + c * s') N i k := by
  have h := coeff_hom c s N i (wp c' s' N k)
  simp only [wM] at h ⊢
  rw [← h, hom_wp c' s' hk, wp]
  congr 3 <;> simp only [C_sub, C_add, C_mul] <;> ring

theorem wM_one (N i j : ℕ) (hj : j ≤ N) : wM (1 : R) 0 N i j = if i = j then 1 else 0 := by
  simp [wM, wp, coeff_X_pow]

theorem wM_pi (N i j : ℕ) : wM (0 : R) 1 N i j = if i = N - j then (-1) ^ (N - j) else 0 := by
  have : wp (0 : R) 1 N j = C ((-1) ^ (N - j)) * X ^ (N - j) := by
    rw [wp, C_pow, C_neg, C_1, ← mul_pow]; simp
  rw [wM, this, coeff_C_mul_X_pow]

theorem wM_rev (c s : R) {N i j : ℕ} (hi : i ≤ N) (hj : j ≤ N) :
    wM c s N (N - i) (N - j) = (-1) ^ i * (-1) ^ j * wM c s N i j := by
  have h1 := wM_mul c s 0 1 N i (N - j) (by omega)
  have h2 := wM_mul 0 1 c s N i (N - j) (by omega)
  have e : wM (c * 0 - s * 1) (s * 0 + c * 1) N i (N - j) =
      wM (0 * c - 1 * s) (1 * c + 0 * s) N i (N - j) := by
    congr 1 <;> ring
  rw [e, ← h2] at h1
  simp only [wM_pi] at h1
  rw [Finset.sum_eq_single j, Finset.sum_eq_single (N - i)] at h1
  · rw [if_pos (by omega), if_pos (by omega), show N - (N - j) = j by omega,
      show N - (N - i) = i by omega] at h1
    have e5 : ((-1 : R)) ^ i * (-1) ^ i = 1 := by rw [← mul_pow]; simp
    linear_combination (-(-1) ^ i) * h1 - wM c s N (N - i) (N - j) * e5
  · intro b hb hne
    rw [Finset.mem_range] at hb
    rw [if_neg (by omega), zero_mul]
  · intro hb; exact absurd (Finset.mem_range.2 (by omega)) hb
  · intro b hb hne
    rw [Finset.mem_range] at hb
    rw [if_neg (by omega), mul_zero]
  · intro hb; exact absurd (Finset.mem_range.2 (by omega)) hb

theorem wM_neg_s (c s : R) (N i j : ℕ) :
    wM c (-s) N i j = (-1) ^ i * (-1) ^ j * wM c s N i j := by
  have h : (wp c s N j).comp (C (-1) * X) = C ((-1) ^ j) * wp c (-s) N j := by
    rw [wp, wp, mul_comp, pow_comp, pow_comp, C_pow, ← mul_assoc, ← mul_pow]
    congr 2
    · simp; ring
    · simp
  have h2 := congrArg (fun p => p.coeff i) h
  simp only [comp_C_mul_X_coeff, coeff_C_mul] at h2
  have e5 : ((-1 : R)) ^ j * (-1) ^ j = 1 := by rw [← mul_pow]; simp
  simp only [wM]
  linear_combination (-(-1) ^ j) * h2 - (wp c (-s) N j).coeff i * e5

theorem wM_neg (c s : R) (N i j : ℕ) (hj : j ≤ N) (hN : Even N) :
    wM (-c) (-s) N i j = wM c s N i j := by
  have : wp (-c) (-s) N j = wp c s N j := by
    rw [wp, wp]
    have e1 : (C (-c) * X + C (-s) : R[X]) = -(C c * X + C s) := by simp; ring
    have e2 : (C (-c) - C (-s) * X : R[X]) = -(C c - C s * X) := by simp; ring
    rw [e1, e2, neg_pow (C c * X + C s), neg_pow (C c - C s * X)]
    have : ((-1 : R[X])) ^ j * (-1) ^ (N - j) = 1 := by
      rw [← pow_add, show j + (N - j) = N by omega]; exact hN.neg_one_pow
    linear_combination ((C c * X + C s) ^ j * (C c - C s * X) ^ (N - j)) * this
  rw [wM, this, wM]

theorem coeff_lin1 (c s : R) (j a : ℕ) :
    ((C c * X + C s) ^ j : R[X]).coeff a = c ^ a * s ^ (j - a) * j.choose a := by
  rw [add_pow, finset_sum_coeff]
  by_cases h : a ≤ j
  · rw [Finset.sum_eq_single a]
    · rw [mul_pow, ← C_pow, ← C_pow, ← C_eq_natCast]
      rw [show (C (c ^ a) * X ^ a * C (s ^ (j - a)) * C ((j.choose a : ℕ) : R) : R[X]) =
        C (c ^ a * s ^ (j - a) * (j.choose a : ℕ)) * X ^ a by simp only [C_mul]; ring]
      rw [coeff_C_mul_X_pow, if_pos rfl]
    · intro b _ hb
      rw [mul_pow, ← C_pow, ← C_pow, ← C_eq_natCast]
      rw [show (C (c ^ b) * X ^ b * C (s ^ (j - b)) * C ((j.choose b : ℕ) : R) : R[X]) =
        C (c ^ b * s ^ (j - b) * (j.choose b : ℕ)) * X ^ b by simp only [C_mul]; ring]
      rw [coeff_C_mul_X_pow, if_neg (Ne.symm hb)]
    · intro h'; exact absurd (Finset.mem_range.2 (by omega)) h'
  · rw [Nat.choose_eq_zero_of_lt (by omega), Nat.cast_zero, mul_zero]
    apply Finset.sum_eq_zero
    intro b hb
    rw [Finset.mem_range] at hb
    rw [mul_pow, ← C_pow, ← C_pow, ← C_eq_natCast]
    rw [show (C (c ^ b) * X ^ b * C (s ^ (j - b)) * C ((j.choose b : ℕ) : R) : R[X]) =
      C (c ^ b * s ^ (j - b) * (j.choose b : ℕ)) * X ^ b by simp only [C_mul]; ring]
    rw [coeff_C_mul_X_pow, if_neg (by omega)]

/-- Explicit form of the matrix. -/
theorem wM_explicit (c s : R) (N i j : ℕ) :
    wM c s N i j = ∑ a ∈ Finset.range (i + 1),
      (c ^ a * s ^ (j - a) * j.choose a) *
        ((-s) ^ (i - a) * c ^ (N - j - (i - a)) * (N - j).choose (i - a)) := by
  rw [wM, wp, coeff_mul, Finset.Nat.sum_antidiagonal_eq_sum_range_succ_mk]
  apply Finset.sum_congr rfl
  intro a _
  rw [coeff_lin1]
  congr 1
  rw [show (C c - C s * X : R[X]) = C (-s) * X + C c by simp; ring, coeff_lin1]

theorem choose_sym (N i j a : ℕ) (hj : j ≤ N) (hi : i ≤ N) (hai : a ≤ i) :
    i.factorial * (N - i).factorial * (j.choose a * (N - j).choose (i - a)) =
      if a ≤ j then j.factorial * (N - j).factorial * (i.choose a * (N - i).choose (j - a)) else 0 := by
  split_ifs with haj
  · by_cases h : i + j ≤ N + a
    · obtain ⟨u, rfl⟩ := Nat.exists_eq_add_of_le haj
      obtain ⟨v, rfl⟩ := Nat.exists_eq_add_of_le hai
      obtain ⟨w, rfl⟩ := Nat.exists_eq_add_of_le (show a + u + v ≤ N by omega)
      rw [show a + v - a = v by omega, show a + u - a = u by omega,
        show a + u + v + w - (a + u) = v + w by omega,
        show a + u + v + w - (a + v) = u + w by omega]
      have h1 := Nat.add_choose_mul_factorial_mul_factorial a u
      have h2 := Nat.add_choose_mul_factorial_mul_factorial v w
      have h3 := Nat.add_choose_mul_factorial_mul_factorial a v
      have h4 := Nat.add_choose_mul_factorial_mul_factorial u w
      have g1 := Nat.choose_symm_add (a := a) (b := u)
      have g2 := Nat.choose_symm_add (a := v) (b := w)
      have g3 := Nat.choose_symm_add (a := a) (b := v)
      have g4 := Nat.choose_symm_add (a := u) (b := w)
      rw [← h1, ← h2, ← h3, ← h4, g1, g2, g3, g4]
      ring
    · rw [Nat.choose_eq_zero_of_lt (show N - j < i - a by omega),
        Nat.choose_eq_zero_of_lt (show N - i < j - a by omega)]
      simp
  · rw [Nat.choose_eq_zero_of_lt (show j < a by omega)]; simp

/-- Transposition up to factorial weights. -/
theorem wM_transpose (c s : R) {N i j : ℕ} (hi : i ≤ N) (hj : j ≤ N) :
    (i.factorial * (N - i).factorial : R) * wM c s N i j =
      (-1) ^ i * (-1) ^ j * ((j.factorial * (N - j).factorial : R) * wM c s N j i) := by
  have key : ∀ i j : ℕ, i ≤ N → j ≤ N → (i.factorial * (N - i).factorial : R) * wM c s N i j =
      ∑ a ∈ Finset.range (N + 1), if a ≤ i ∧ a ≤ j then
        (i.factorial * (N - i).factorial : R) * ((c ^ a * s ^ (j - a) * j.choose a) *
        ((-s) ^ (i - a) * c ^ (N - j - (i - a)) * (N - j).choose (i - a))) else 0 := by
    intro i j hi hj
    rw [wM_explicit, Finset.mul_sum]
    rw [← Finset.sum_subset (Finset.range_subset_range.2 (show i + 1 ≤ N + 1 by omega))]
    · apply Finset.sum_congr rfl
      intro a ha
      rw [Finset.mem_range] at ha
      by_cases h : a ≤ j
      · rw [if_pos ⟨by omega, h⟩]
      · rw [if_neg (by omega), Nat.choose_eq_zero_of_lt (show j < a by omega)]; simp
    · intro a _ ha
      rw [Finset.mem_range] at ha
      rw [if_neg (by omega)]
  rw [key i j hi hj, key j i hj hi, Finset.mul_sum]
  apply Finset.sum_congr rfl
  intro a _
  by_cases h : a ≤ i ∧ a ≤ j
  · rw [if_pos h, if_pos h.symm]
    have e := choose_sym N i j a hj hi h.1
    rw [if_pos h.2] at e
    have e' : (i.factorial * (N - i).factorial * (j.choose a * (N - j).choose (i - a)) : R) =
      j.factorial * (N - j).factorial * (i.choose a * (N - i).choose (j - a)) := by
      have := congrArg (Nat.cast : ℕ → R) e
      push_cast at this; exact this
    have e2 : N - j - (i - a) = N - i - (j - a) := by omega
    rw [e2, neg_pow s (i - a), neg_pow s (j - a)]
    have e3 : ((-1 : R)) ^ (i - a) = (-1) ^ i * (-1) ^ a := by
      obtain ⟨v, rfl⟩ := Nat.exists_eq_add_of_le h.1
      rw [show a + v - a = v by omega, pow_add]
      have : ((-1 : R)) ^ a * (-1) ^ a = 1 := by rw [← mul_pow]; simp
      linear_combination (-(-1) ^ v) * this
    have e4 : ((-1 : R)) ^ (j - a) = (-1) ^ j * (-1) ^ a := by
      obtain ⟨v, rfl⟩ := Nat.exists_eq_add_of_le h.2
      rw [show a + v - a = v by omega, pow_add]
      have : ((-1 : R)) ^ a * (-1) ^ a = 1 := by rw [← mul_pow]; simp
      linear_combination (-(-1) ^ v) * this
    rw [e3, e4]
    have e5 : ((-1 : R)) ^ j * (-1) ^ j = 1 := by rw [← mul_pow]; simp
    linear_combination (c ^ a * s ^ (j - a) * (-1) ^ i * (-1) ^ a * s ^ (i - a) *
      c ^ (N - i - (j - a))) * e' - (-1) ^ i * (j.factorial * (N - j).factorial : R) *
      (c ^ a * s ^ (i - a) * i.choose a) * ((-1) ^ a * s ^ (j - a)) * c ^ (N - i - (j - a)) *
      (N - i).choose (j - a) * e5
  · rw [if_neg h, if_neg (fun h' => h h'.symm), mul_zero]

/-- The ladder recursion. -/
theorem wp_ladder (c s : R) (h : c ^ 2 + s ^ 2 = 1) {N j : ℕ} (hj : j ≤ N) :
    (1 + X ^ 2) * derivative (wp c s N j) - (N : R[X]) * X * wp c s N j =
      (j : R[X]) * wp c s N (j - 1) - ((N - j : ℕ) : R[X]) * wp c s N (j + 1) := by
  obtain ⟨k, rfl⟩ := Nat.exists_eq_add_of_le hj
  have hC : (C c : R[X]) ^ 2 + C s ^ 2 = 1 := by rw [← C_pow, ← C_pow, ← C_add, h, C_1]
  simp only [wp, derivative_mul, derivative_pow, derivative_sub, derivative_add, derivative_C,
    derivative_X, map_mul, derivative_C_mul]
  rw [show j + k - j = k by omega, show j + k - (j - 1) = k + (j - (j - 1)) by omega,
    show j + k - (j + 1) = k - 1 by omega]
  set x : R[X] := C c * X + C s with hx
  set y : R[X] := C c - C s * X with hy
  have e1 : C s * x + C c * y = 1 := by rw [hx, hy, ← hC]; ring
  have e2 : C c * x - C s * y = X := by
    rw [hx, hy]; linear_combination X * hC
  have e3 : (1 + X ^ 2 : R[X]) = x ^ 2 + y ^ 2 := by
    rw [hx, hy]; linear_combination (-1 - X ^ 2) * hC
  rw [e3]
  have hj' : (j : R[X]) * (x ^ (j - 1) * y ^ (k + (j - (j - 1)))) =
      (j : R[X]) * (x ^ (j - 1) * (y ^ k * y)) := by
    rcases j with _ | j
    · simp
    · simp [pow_succ]
  rw [hj']
  have hjx : (j : R[X]) * x ^ (j - 1) * x = j * x ^ j := by
    rcases j with _ | j
    · simp
    · simp only [Nat.add_sub_cancel]; rw [pow_succ]; ring
  have hky : (k : R[X]) * y ^ (k - 1) * y = k * y ^ k := by
    rcases k with _ | k
    · simp
    · simp only [Nat.add_sub_cancel]; rw [pow_succ]; ring
  have eX : (X : R[X]) = C c * x - C s * y := e2.symm
  clear_value x y
  rw [eX]
  push_cast
  simp only [C_eq_natCast]
  rw [pow_succ x j]
  have hA : (j : R[X]) * (x ^ (j - 1) * (y ^ k * y)) = (j * x ^ (j - 1)) * (y ^ k * y) := by ring
  have hB : (k : R[X]) * (x ^ j * x * y ^ (k - 1)) = (k * y ^ (k - 1)) * (x ^ j * x) := by ring
  rw [hA, hB]
  generalize (j : R[X]) * x ^ (j - 1) = A at *
  generalize (k : R[X]) * y ^ (k - 1) = B at *
  generalize (x ^ j) = P at *
  generalize (y ^ k) = Q at *
  linear_combination (C c * x * Q - C s * y * Q) * hjx - (C s * y * P - C c * x * P) * hky
    + (A * Q * y - P * B * x) * e1

/-- The ladder recursion on the matrix. -/
theorem wM_ladder (c s : R) (h : c ^ 2 + s ^ 2 = 1) {N j : ℕ} (hj : j ≤ N) (i : ℕ) :
    (i + 1 : R) * wM c s N (i + 1) j - (if i = 0 then 0 else (N - i + 1 : R) * wM c s N (i - 1) j) =
      j * wM c s N i (j - 1) - (N - j : R) * wM c s N i (j + 1) := by
  have h1 := congrArg (fun p => p.coeff i) (wp_ladder c s h hj)
  simp only [coeff_sub, add_mul, one_mul, coeff_add, coeff_derivative, mul_assoc,
    coeff_natCast_mul] at h1
  rw [Nat.cast_sub hj] at h1
  simp only [wM]
  rcases i with _ | _ | i
  · simp only [coeff_X_pow_mul', coeff_X_mul_zero, if_true] at h1 ⊢
    simp only [show ¬ (2 ≤ 0) by omega, if_false] at h1
    simp only [Nat.cast_zero] at h1 ⊢
    linear_combination h1
  · simp only [coeff_X_pow_mul', show 0 + 1 = 1 by rfl, if_neg (show ¬ (2 ≤ 1) by omega),
      if_neg (show ¬ (1 = 0) by omega), Nat.cast_one, Nat.sub_self] at h1 ⊢
    have hX : (X * wp c s N j).coeff 1 = (wp c s N j).coeff 0 := coeff_X_mul _ 0
    rw [hX] at h1
    linear_combination h1
  · rw [show i + 1 + 1 = i + 2 by rfl] at h1 ⊢
    simp only [coeff_X_pow_mul, coeff_derivative] at h1
    have hX : (X * wp c s N j).coeff (i + 2) = (wp c s N j).coeff (i + 1) := coeff_X_mul _ (i + 1)
    rw [hX] at h1
    rw [if_neg (by omega), show i + 2 - 1 = i + 1 by omega]
    push_cast at h1 ⊢
    linear_combination h1

theorem wM_sq (c s : R) (h : c ^ 2 + s ^ 2 = 1) {N j : ℕ} (hj : j ≤ N) (i : ℕ) :
    wM c s N i j = s ^ 2 * wM c s (N + 2) i (j + 2) + 2 * s * c * wM c s (N + 2) i (j + 1)
      + c ^ 2 * wM c s (N + 2) i j := by
  have hC : (C c : R[X]) ^ 2 + C s ^ 2 = 1 := by rw [← C_pow, ← C_pow, ← C_add, h, C_1]
  have e : wp c s N j = C (s ^ 2) * wp c s (N + 2) (j + 2) + C (2 * s * c) * wp c s (N + 2) (j + 1)
      + C (c ^ 2) * wp c s (N + 2) j := by
    obtain ⟨k, rfl⟩ := Nat.exists_eq_add_of_le hj
    simp only [wp]
    rw [show j + k - j = k by omega, show j + k + 2 - (j + 2) = k by omega,
      show j + k + 2 - (j + 1) = k + 1 by omega, show j + k + 2 - j = k + 2 by omega]
    set x : R[X] := C c * X + C s with hx
    set y : R[X] := C c - C s * X with hy
    have e1 : C s * x + C c * y = 1 := by rw [hx, hy, ← hC]; ring
    clear_value x y
    simp only [C_mul, C_pow, C_ofNat]
    linear_combination -(x ^ j * y ^ k) * (C s * x + C c * y + 1) * e1
  simp only [wM]
  rw [e]
  simp only [coeff_add, coeff_C_mul]

theorem wp_map {S : Type*} [CommRing S] (f : R →+* S) (c s : R) (N j : ℕ) :
    (wp c s N j).map f = wp (f c) (f s) N j := by
  simp [wp, Polynomial.map_mul, Polynomial.map_pow]

theorem wM_map {S : Type*} [CommRing S] (f : R →+* S) (c s : R) (N i j : ℕ) :
    f (wM c s N i j) = wM (f c) (f s) N i j := by
  rw [wM, wM, ← wp_map, coeff_map]

end Newt
