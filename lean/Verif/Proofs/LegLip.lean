import Verif.Proofs.BodyForce
import Verif.Proofs.ShellTheorem
import Mathlib.RingTheory.PowerSeries.Derivative
import Mathlib.Data.Nat.Choose.Central

/-!
# Sharp bounds on the gradient of Legendre terms

`r^l P_l(cos t) = ∑ c_i c_j Re(zeta^i conj(zeta)^j)` over `i + j = l`, with positive weights that add up to 1.
-/

namespace Newt

open Spec PowerSeries

/-- The weights `binom(2k, k) / 4^k`. -/
noncomputable def cw (k : ℕ) : ℝ := (Nat.centralBinom k : ℝ) / 4 ^ k

theorem cw_nonneg (k : ℕ) : 0 ≤ cw k := by unfold cw; positivity

theorem cw_succ (k : ℕ) : ((k : ℝ) + 1) * cw (k + 1) = (k + 1 / 2) * cw k := by
  have h := Nat.succ_mul_centralBinom_succ k
  have h' : ((k : ℝ) + 1) * (Nat.centralBinom (k + 1) : ℝ) = 2 * (2 * k + 1) * (Nat.centralBinom k : ℝ) := by
    exact_mod_cast h
  unfold cw
  rw [pow_succ]
  field_simp
  linarith

noncomputable def cwS (a : ℂ) : PowerSeries ℂ := PowerSeries.mk fun k => (cw k : ℂ) * a ^ k

theorem cwS_ode (a : ℂ) : derivative ℂ (cwS a) * (1 - C a * X) = C (a / 2) * cwS a := by
  ext n
  rw [mul_sub, mul_one, mul_comm (C a) X, ← mul_assoc, map_sub, coeff_C_mul, coeff_mul_C]
  have h := congrArg (fun x : ℝ => (x : ℂ)) (cw_succ n)
  push_cast at h
  rcases n with _ | n
  · rw [coeff_zero_mul_X, coeff_derivative, cwS, coeff_mk, coeff_mk]
    push_cast at h ⊢
    simp at h ⊢
    linear_combination a * h
  · rw [coeff_succ_mul_X, coeff_derivative, coeff_derivative, cwS, coeff_mk, coeff_mk]
    push_cast at h ⊢
    linear_combination a ^ (n + 1 + 1) * h

theorem cw_prod_ode (a b : ℂ) : derivative ℂ (cwS a * cwS b) * ((1 - C a * X) * (1 - C b * X)) =
    (C (a / 2) * (1 - C b * X) + C (b / 2) * (1 - C a * X)) * (cwS a * cwS b) := by
  have h : derivative ℂ (cwS a * cwS b) = cwS a * derivative ℂ (cwS b) + cwS b * derivative ℂ (cwS a) := by
    rw [Derivation.leibniz]; simp [smul_eq_mul]
  rw [h]
  have h1 := cwS_ode a
  have h2 := cwS_ode b
  linear_combination (cwS b) * (1 - C b * X) * h1 + (cwS a) * (1 - C a * X) * h2

/-- The coefficients of the product. -/
noncomputable def cwP (a b : ℂ) (l : ℕ) : ℂ := coeff l (cwS a * cwS b)

theorem cwP_sum (a b : ℂ) (l : ℕ) :
    cwP a b l = ∑ p ∈ Finset.antidiagonal l, ((cw p.1 * cw p.2 : ℝ) : ℂ) * (a ^ p.1 * b ^ p.2) := by
  rw [cwP, coeff_mul]
  refine Finset.sum_congr rfl fun p _ => ?_
  rw [cwS, cwS, coeff_mk, coeff_mk]
  push_cast
  ring

theorem cwP_rec (a b : ℂ) (l : ℕ) :
    ((l : ℂ) + 2) * cwP a b (l + 2) = (2 * l + 3) * ((a + b) / 2) * cwP a b (l + 1) - (l + 1) * (a * b) * cwP a b l := by
  have h := congrArg (coeff (l + 1)) (cw_prod_ode a b)
  set F := cwS a * cwS b with hF
  have e1 : derivative ℂ F * ((1 - C a * X) * (1 - C b * X)) =
      derivative ℂ F - C (a + b) * (derivative ℂ F * X) + C (a * b) * (derivative ℂ F * X * X) := by
    rw [C.map_add, C.map_mul]; ring
  have e2 : (C (a / 2) * (1 - C b * X) + C (b / 2) * (1 - C a * X)) * F =
      C ((a + b) / 2) * F - C (a * b) * (F * X) := by
    have : (C (a * b) : PowerSeries ℂ) = C (a / 2) * C b + C (b / 2) * C a := by
      rw [← map_mul, ← map_mul, ← map_add]; congr 1; ring
    rw [this, add_div, C.map_add]; ring
  rw [e1, e2] at h
  rw [map_add, map_sub, map_sub] at h
  simp only [coeff_C_mul, coeff_succ_mul_X, coeff_derivative] at h
  have e3 : coeff l (derivative ℂ F * X) = l * coeff l F := by
    rcases l with _ | l
    · rw [coeff_zero_mul_X]; simp
    · rw [coeff_succ_mul_X, coeff_derivative]; push_cast; ring
  rw [e3] at h
  unfold cwP
  rw [← hF]
  push_cast at h
  linear_combination h

theorem pz_cwP (zeta : ℂ) (l : ℕ) :
    (pz zeta.re (‖zeta‖ ^ 2) l : ℂ) = cwP zeta ((starRingEnd ℂ) zeta) l := by
  have hs : (zeta + (starRingEnd ℂ) zeta) / 2 = (zeta.re : ℂ) := by
    rw [Complex.add_conj]; push_cast; ring
  have hp : zeta * (starRingEnd ℂ) zeta = ((‖zeta‖ ^ 2 : ℝ) : ℂ) := by
    rw [Complex.mul_conj, Complex.normSq_eq_norm_sq]
  induction l using Nat.strong_induction_on with
  | _ l ih =>
    match l with
    | 0 => simp [cwP_sum, pz, cw]
    | 1 =>
      have : Finset.antidiagonal 1 = {(0, 1), (1, 0)} := by decide
      rw [cwP_sum, this, Finset.sum_insert (by simp), Finset.sum_singleton, pz, ← hs]
      simp [cw, Nat.centralBinom]
      ring
    | l + 2 =>
      have h1 := cwP_rec zeta ((starRingEnd ℂ) zeta) l
      rw [hs, hp, ← ih (l + 1) (by omega), ← ih l (by omega)] at h1
      have h2 := congrArg (fun x : ℝ => (x : ℂ)) (pz_rec zeta.re (‖zeta‖ ^ 2) l)
      push_cast at h1 h2
      have hne : (l : ℂ) + 2 ≠ 0 := by exact_mod_cast (by omega : l + 2 ≠ 0)
      apply mul_left_cancel₀ hne
      rw [h1, h2]

theorem cw_sum (l : ℕ) : ∑ p ∈ Finset.antidiagonal l, cw p.1 * cw p.2 = 1 := by
  have h := pz_cwP 1 l
  rw [cwP_sum] at h
  simp only [Complex.one_re, norm_one, one_pow, map_one, mul_one] at h
  rw [pz_one] at h
  exact_mod_cast h.symm

theorem mono_lip (a : ℝ) (z z' : ℂ) (hz : ‖z‖ ≤ a) (hz' : ‖z'‖ ≤ a) (i : ℕ) :
    ‖z ^ i - z' ^ i‖ ≤ i * a ^ (i - 1) * ‖z - z'‖ := by
  have ha : 0 ≤ a := (norm_nonneg z).trans hz
  induction i with
  | zero => simp
  | succ i ih =>
    have e : z ^ (i + 1) - z' ^ (i + 1) = z ^ i * (z - z') + (z ^ i - z' ^ i) * z' := by ring
    rw [e]
    refine (norm_add_le _ _).trans ?_
    rw [norm_mul, norm_mul, norm_pow]
    have h1 : ‖z‖ ^ i * ‖z - z'‖ ≤ a ^ i * ‖z - z'‖ := by gcongr
    have h2 : ‖z ^ i - z' ^ i‖ * ‖z'‖ ≤ i * a ^ (i - 1) * ‖z - z'‖ * a := by gcongr
    have h3 : (i : ℝ) * a ^ (i - 1) * ‖z - z'‖ * a = i * a ^ i * ‖z - z'‖ := by
      rcases i with _ | i
      · simp
      · rw [Nat.add_sub_cancel, pow_succ]; ring
    rw [h3] at h2
    push_cast
    linarith

theorem mono2_lip (a : ℝ) (z z' : ℂ) (hz : ‖z‖ ≤ a) (hz' : ‖z'‖ ≤ a) (i j : ℕ) :
    ‖z ^ i * (starRingEnd ℂ) z ^ j - z' ^ i * (starRingEnd ℂ) z' ^ j‖ ≤ (i + j : ℕ) * a ^ (i + j - 1) * ‖z - z'‖ := by
  have ha : 0 ≤ a := (norm_nonneg z).trans hz
  have e : z ^ i * (starRingEnd ℂ) z ^ j - z' ^ i * (starRingEnd ℂ) z' ^ j =
      z ^ i * (starRingEnd ℂ) (z ^ j - z' ^ j) + (z ^ i - z' ^ i) * (starRingEnd ℂ) (z' ^ j) := by
    simp only [map_sub, map_pow]; ring
  rw [e]
  refine (norm_add_le _ _).trans ?_
  rw [norm_mul, norm_mul, RCLike.norm_conj, RCLike.norm_conj, norm_pow, norm_pow]
  have h1 : ‖z‖ ^ i * ‖z ^ j - z' ^ j‖ ≤ a ^ i * (j * a ^ (j - 1) * ‖z - z'‖) := by
    gcongr; exact mono_lip a z z' hz hz' j
  have h2 : ‖z ^ i - z' ^ i‖ * ‖z'‖ ^ j ≤ (i * a ^ (i - 1) * ‖z - z'‖) * a ^ j := by
    gcongr; exact mono_lip a z z' hz hz' i
  have h3 : a ^ i * (j * a ^ (j - 1) * ‖z - z'‖) = j * a ^ (i + j - 1) * ‖z - z'‖ := by
    rcases j with _ | j
    · simp
    · rw [show i + (j + 1) - 1 = i + j by omega, Nat.add_sub_cancel, pow_add]; ring
  have h4 : (i * a ^ (i - 1) * ‖z - z'‖) * a ^ j = i * a ^ (i + j - 1) * ‖z - z'‖ := by
    rcases i with _ | i
    · simp
    · rw [show i + 1 + j - 1 = i + j by omega, Nat.add_sub_cancel, pow_add]; ring
  push_cast
  linarith

/-- The homogeneous Legendre polynomial of degree `l` is Lipschitz with constant `l a^(l-1)` on the disk of radius `a`. -/
theorem pz_lip (a : ℝ) (z z' : ℂ) (hz : ‖z‖ ≤ a) (hz' : ‖z'‖ ≤ a) (l : ℕ) :
    |pz z.re (‖z‖ ^ 2) l - pz z'.re (‖z'‖ ^ 2) l| ≤ l * a ^ (l - 1) * ‖z - z'‖ := by
  have h : ((pz z.re (‖z‖ ^ 2) l - pz z'.re (‖z'‖ ^ 2) l : ℝ) : ℂ) = ∑ p ∈ Finset.antidiagonal l,
      ((cw p.1 * cw p.2 : ℝ) : ℂ) * (z ^ p.1 * (starRingEnd ℂ) z ^ p.2 - z' ^ p.1 * (starRingEnd ℂ) z' ^ p.2) := by
    rw [Complex.ofReal_sub, pz_cwP, pz_cwP, cwP_sum, cwP_sum, ← Finset.sum_sub_distrib]
    exact Finset.sum_congr rfl fun p _ => by ring
  rw [← Real.norm_eq_abs, ← Complex.norm_real, h]
  refine (norm_sum_le _ _).trans ?_
  calc _ ≤ ∑ p ∈ Finset.antidiagonal l, (cw p.1 * cw p.2) * (l * a ^ (l - 1) * ‖z - z'‖) := by
        refine Finset.sum_le_sum fun p hp => ?_
        have hp' := Finset.mem_antidiagonal.1 hp
        have h0 : 0 ≤ cw p.1 * cw p.2 := mul_nonneg (cw_nonneg _) (cw_nonneg _)
        rw [norm_mul, Complex.norm_real, Real.norm_eq_abs, abs_of_nonneg h0]
        gcongr
        have := mono2_lip a z z' hz hz' p.1 p.2
        rwa [hp'] at this
    _ = _ := by rw [← Finset.sum_mul, cw_sum, one_mul]

/-- The point `x` seen along the direction `n` (a unit vector): height and distance from the axis. -/
noncomputable def axial (n x : V3) : ℂ := ⟨x ⬝ᵥ n, modulus (x - (x ⬝ᵥ n) • n)⟩

theorem nsq_sub_smul (n x : V3) (hn : nsq n = 1) : nsq (x - (x ⬝ᵥ n) • n) = nsq x - (x ⬝ᵥ n) ^ 2 := by
  have h1 : nsq n = n 0 ^ 2 + n 1 ^ 2 + n 2 ^ 2 := rfl
  rw [h1] at hn
  simp only [nsq, dotProduct, Fin.sum_univ_three, Pi.sub_apply, Pi.smul_apply, smul_eq_mul]
  linear_combination (x 0 * n 0 + x 1 * n 1 + x 2 * n 2) ^ 2 * hn

theorem norm_axial (n x : V3) (hn : nsq n = 1) : ‖axial n x‖ = modulus x := by
  have h : ‖axial n x‖ ^ 2 = modulus x ^ 2 := by
    rw [← Complex.normSq_eq_norm_sq, Complex.normSq_apply]
    simp only [axial]
    rw [← pow_two, ← pow_two, modulus_sq, nsq_sub_smul n x hn, modulus_sq]; ring
  exact (sq_eq_sq₀ (norm_nonneg _) (modulus_nonneg _)).1 h

theorem axial_lip (n x x' : V3) (hn : nsq n = 1) : ‖axial n x - axial n x'‖ ≤ modulus (x - x') := by
  refine (sq_le_sq₀ (norm_nonneg _) (modulus_nonneg _)).1 ?_
  rw [← Complex.normSq_eq_norm_sq, Complex.normSq_apply, modulus_sq]
  have h1 := nsq_sub_smul n (x - x') hn
  have e : (x - x') - ((x - x') ⬝ᵥ n) • n = (x - (x ⬝ᵥ n) • n) - (x' - (x' ⬝ᵥ n) • n) := by
    rw [sub_dotProduct, sub_smul]; abel
  rw [e] at h1
  have h2 : (modulus (x - (x ⬝ᵥ n) • n) - modulus (x' - (x' ⬝ᵥ n) • n)) ^ 2 ≤
      nsq ((x - (x ⬝ᵥ n) • n) - (x' - (x' ⬝ᵥ n) • n)) := by
    rw [← modulus_sq]
    set u := x - (x ⬝ᵥ n) • n
    set w := x' - (x' ⬝ᵥ n) • n
    apply sq_le_sq'
    · have := modulus_add_le (w - u) u
      rw [sub_add_cancel] at this
      rw [← modulus_neg (u - w), neg_sub]; linarith
    · have := modulus_add_le (u - w) w
      rw [sub_add_cancel] at this
      linarith
  simp only [axial, Complex.sub_re, Complex.sub_im]
  rw [sub_dotProduct] at h1
  nlinarith

/-- The degree-`l` term of the expansion of `1/|x-y|` is Lipschitz in `x`. -/
theorem tm_lip (l : ℕ) (a : ℝ) (x x' y : V3) (hx : modulus x ≤ a) (hx' : modulus x' ≤ a) (hy : y ≠ 0) :
    |tm l x y - tm l x' y| ≤ l * a ^ (l - 1) / modulus y ^ (l + 1) * modulus (x - x') := by
  have ha : 0 ≤ a := (modulus_nonneg x).trans hx
  have hm : 0 < modulus y := lt_of_le_of_ne (modulus_nonneg _) (Ne.symm fun h => hy ((modulus_eq_zero y).1 h))
  set n : V3 := (1 / modulus y) • y with hn
  have hn1 : nsq n = 1 := by
    have := modulus_sq n
    rw [← this, hn, modulus_smul, abs_of_pos (by positivity)]
    field_simp
  have key : ∀ x : V3, tm l x y = pz (axial n x).re (‖axial n x‖ ^ 2) l / modulus y ^ (l + 1) := by
    intro x
    rw [norm_axial n x hn1, tm]
    have : (axial n x).re = (x ⬝ᵥ y) / modulus y := by
      simp only [axial, hn, dotProduct_smul, smul_eq_mul]; ring
    rw [this, one_div, inv_pow, pow_succ]
    generalize pz (x ⬝ᵥ y / modulus y) (modulus x ^ 2) l = P
    field_simp
    try ring
  rw [key, key, ← sub_div, abs_div, abs_of_pos (pow_pos hm _), div_le_iff₀ (pow_pos hm _)]
  have h1 := pz_lip a (axial n x) (axial n x') (by rwa [norm_axial n x hn1]) (by rwa [norm_axial n x' hn1]) l
  have h2 := axial_lip n x x' hn1
  refine h1.trans ?_
  have e : l * a ^ (l - 1) / modulus y ^ (l + 1) * modulus (x - x') * modulus y ^ (l + 1) =
      l * a ^ (l - 1) * modulus (x - x') := by field_simp
  rw [e]
  gcongr

end Newt
