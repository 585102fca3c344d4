import Verif.Model.WigFloat
import Verif.Spec.WigRounding
import Verif.Proofs.TransRounding
import Verif.Proofs.WignerRot
import Mathlib.Analysis.SpecialFunctions.Complex.CircleMap

/-!
# Rounding errors of the explicit Wigner matrices
-/

namespace Newt

open Spec Flt

variable {a : Arith} {u : ℝ} {e : ℕ → ℝ}

/-! ## the size of the entries -/

/-- One binomial distribution times another, along a diagonal. -/
theorem binom_diag {x y : ℝ} (hx : 0 ≤ x) (hy : 0 ≤ y) (A B : ℕ) {ι : Type} [DecidableEq ι] (S : Finset ι) (i j : ι → ℕ) (hi : ∀ k ∈ S, i k ≤ A) (hj : ∀ k ∈ S, j k ≤ B)
    (hinj : Set.InjOn i S) :
    ∑ k ∈ S, (x ^ (i k) * y ^ (A - i k) * (A.choose (i k) : ℝ)) * (x ^ (j k) * y ^ (B - j k) * (B.choose (j k) : ℝ)) ≤ (x + y) ^ (A + B) := by
  rw [pow_add, add_pow x y A, add_pow x y B, Finset.sum_mul_sum, ← Finset.sum_product']
  have hin : Set.InjOn (fun k => (i k, j k)) S := fun p hp q hq h => hinj hp hq (congrArg Prod.fst h)
  rw [← Finset.sum_image (f := fun p : ℕ × ℕ => (x ^ p.1 * y ^ (A - p.1) * (A.choose p.1 : ℝ)) * (x ^ p.2 * y ^ (B - p.2) * (B.choose p.2 : ℝ))) hin]
  refine Finset.sum_le_sum_of_subset_of_nonneg ?_ fun p _ _ => by positivity
  intro p hp
  obtain ⟨k, hk, rfl⟩ := Finset.mem_image.1 hp
  rw [Finset.mem_product, Finset.mem_range, Finset.mem_range]
  exact ⟨Nat.lt_succ_of_le (hi k hk), Nat.lt_succ_of_le (hj k hk)⟩

theorem choose_fct {n k : ℤ} (hk : 0 ≤ k) (hkn : k ≤ n) : ((n.toNat.choose k.toNat : ℕ) : ℝ) = fct n / (fct k * fct (n - k)) := by
  rw [Nat.cast_choose ℝ (by omega), fct, fct, fct, show (n - k).toNat = n.toNat - k.toNat by omega]

theorem wignerAbs_nonneg (l : ℕ) (n m : ℤ) (beta : ℝ) : 0 ≤ wignerAbs l n m beta := by
  rw [wignerAbs]
  refine mul_nonneg (mul_nonneg (Real.sqrt_nonneg _) (Real.sqrt_nonneg _)) (Finset.sum_nonneg fun k _ => mul_nonneg (by positivity) ?_)
  have h : ∀ j : ℤ, 0 ≤ invFct j := by
    intro j
    rw [invFct]
    split_ifs
    · exact le_rfl
    · rw [fct]; positivity
  exact mul_nonneg (mul_nonneg (mul_nonneg (h _) (h _)) (h _)) (h _)

/-- The terms that count. -/
theorem wignerAbs_eq {l : ℕ} {n m : ℤ} (hn : n.natAbs ≤ l) (hm : m.natAbs ≤ l) (beta : ℝ) : wignerAbs l n m beta =
    Real.sqrt (fct (l - m) * fct (l + m)) * Real.sqrt (fct (l - n) * fct (l + n)) *
    ∑ k ∈ Finset.Icc (max (m - n) 0) (min (l + m) (l - n)), |Real.cos (beta / 2)| ^ (2 * l + m - n - 2 * k).toNat * |Real.sin (beta / 2)| ^ (n - m + 2 * k).toNat /
      (fct k * fct (l + m - k)) / (fct (l - n - k) * fct (n - m + k)) := by
  rw [wignerAbs]
  congr 1
  symm
  refine Finset.sum_subset_zero_on_sdiff ?_ ?_ ?_
  · intro k hk
    rw [Finset.mem_Icc] at hk ⊢
    omega
  · intro k hk
    rw [Finset.mem_sdiff, Finset.mem_Icc, Finset.mem_Icc] at hk
    have : k < 0 ∨ l + m - k < 0 ∨ l - n - k < 0 ∨ n - m + k < 0 := by omega
    rw [invFct, invFct, invFct, invFct]
    rcases this with h | h | h | h <;> rw [if_pos h] <;> simp
  · intro k hk
    rw [Finset.mem_Icc] at hk
    rw [invFct, invFct, invFct, invFct, if_neg (by omega), if_neg (by omega), if_neg (by omega), if_neg (by omega)]
    rw [div_div, div_eq_mul_one_div]
    congr 1
    rw [one_div, one_div, one_div, one_div, one_div, mul_inv, mul_inv, mul_inv]
    ring

theorem fct_pos' (n : ℤ) : 0 < fct n := by rw [fct]; positivity

theorem cs_sum_sq (beta : ℝ) : (|Real.sin beta| + |Real.cos beta|) ^ 2 ≤ 2 := by
  have h1 := Real.sin_sq_add_cos_sq beta
  have h2 := sq_abs (Real.sin beta)
  have h3 := sq_abs (Real.cos beta)
  nlinarith [sq_nonneg (|Real.sin beta| - |Real.cos beta|)]

/-- Without regard to sign, an entry of degree `l` is at most `2^l` (with sign it is at most one). -/
theorem wignerAbs_le {l : ℕ} {n m : ℤ} (hn : n.natAbs ≤ l) (hm : m.natAbs ≤ l) (beta : ℝ) : wignerAbs l n m beta ≤ 2 ^ l := by
  rw [wignerAbs_eq hn hm]
  set x := |Real.sin (beta / 2)| with hx
  set y := |Real.cos (beta / 2)| with hy
  have x0 : 0 ≤ x := abs_nonneg _
  have y0 : 0 ≤ y := abs_nonneg _
  set S := Finset.Icc (max (m - n) 0) (min ((l : ℤ) + m) (l - n)) with hS
  have hmem : ∀ k ∈ S, 0 ≤ k ∧ m - n ≤ k ∧ k ≤ l + m ∧ k ≤ l - n := by
    intro k hk
    rw [hS, Finset.mem_Icc] at hk
    omega
  -- the two distributions
  have P := binom_diag x0 y0 ((l : ℤ) + m).toNat ((l : ℤ) - m).toNat S (fun k => k.toNat) (fun k => (n - m + k).toNat) (fun k hk => by have := hmem k hk; omega)
    (fun k hk => by have := hmem k hk; omega) (fun p hp q hq h => by have := hmem p hp; have := hmem q hq; simp only at h; omega)
  have Q := binom_diag x0 y0 ((l : ℤ) + n).toNat ((l : ℤ) - n).toNat S (fun k => (n - m + k).toNat) (fun k => k.toNat) (fun k hk => by have := hmem k hk; omega)
    (fun k hk => by have := hmem k hk; omega) (fun p hp q hq h => by have := hmem p hp; have := hmem q hq; simp only at h; omega)
  rw [show ((l : ℤ) + m).toNat + ((l : ℤ) - m).toNat = 2 * l by omega] at P
  rw [show ((l : ℤ) + n).toNat + ((l : ℤ) - n).toNat = 2 * l by omega] at Q
  have hz : (x + y) ^ (2 * l) ≤ 2 ^ l := by
    rw [pow_mul]
    exact pow_le_pow_left₀ (sq_nonneg _) (cs_sum_sq (beta / 2)) l
  refine abs_le_of_sq_le_sq' ?_ (by positivity) |>.2
  refine le_trans ?_ (show (x + y) ^ (2 * l) * (x + y) ^ (2 * l) ≤ _ by
    rw [sq]; exact mul_le_mul hz hz (by positivity) (by positivity))
  refine le_trans ?_ (mul_le_mul P Q (Finset.sum_nonneg fun k _ => by positivity) (by positivity))
  rw [Finset.mul_sum]
  refine Finset.sum_sq_le_sum_mul_sum_of_sq_eq_mul S (fun k _ => by positivity) (fun k _ => by positivity) ?_
  intro k hk
  obtain ⟨k1, k2, k3, k4⟩ := hmem k hk
  have c1 := choose_fct k1 k3
  have c2 := choose_fct (n := (l : ℤ) - m) (k := n - m + k) (by omega) (by omega)
  have c3 := choose_fct (n := (l : ℤ) + n) (k := n - m + k) (by omega) (by omega)
  have c4 := choose_fct k1 k4
  rw [c1, c2, c3, c4, show (l : ℤ) - m - (n - m + k) = l - n - k by ring, show (l : ℤ) + n - (n - m + k) = l + m - k by ring]
  have e1 : x ^ k.toNat * x ^ (n - m + k).toNat = x ^ (n - m + 2 * k).toNat := by rw [← pow_add]; congr 1; omega
  have e2 : y ^ (((l : ℤ) + m).toNat - k.toNat) * y ^ (((l : ℤ) - m).toNat - (n - m + k).toNat) = y ^ (2 * (l : ℤ) + m - n - 2 * k).toNat := by rw [← pow_add]; congr 1; omega
  have e3 : y ^ (((l : ℤ) + n).toNat - (n - m + k).toNat) * y ^ (((l : ℤ) - n).toNat - k.toNat) = y ^ (2 * (l : ℤ) + m - n - 2 * k).toNat := by rw [← pow_add]; congr 1; omega
  have s1 := Real.sq_sqrt (mul_pos (fct_pos' ((l : ℤ) - m)) (fct_pos' (l + m))).le
  have s2 := Real.sq_sqrt (mul_pos (fct_pos' ((l : ℤ) - n)) (fct_pos' (l + n))).le
  have f1 := (fct_pos' k).ne'
  have f2 := (fct_pos' (l + m - k)).ne'
  have f3 := (fct_pos' (l - n - k)).ne'
  have f4 := (fct_pos' (n - m + k)).ne'
  calc _ = (Real.sqrt (fct (↑l - m) * fct (↑l + m)) ^ 2) * (Real.sqrt (fct (↑l - n) * fct (↑l + n)) ^ 2) *
        (y ^ (2 * (l : ℤ) + m - n - 2 * k).toNat * x ^ (n - m + 2 * k).toNat / (fct k * fct (l + m - k)) / (fct (l - n - k) * fct (n - m + k))) ^ 2 := by ring
    _ = ((x ^ k.toNat * x ^ (n - m + k).toNat) * (y ^ (((l : ℤ) + m).toNat - k.toNat) * y ^ (((l : ℤ) - m).toNat - (n - m + k).toNat)) *
          (fct (l + m) / (fct k * fct (l + m - k)) * (fct (l - m) / (fct (n - m + k) * fct (l - n - k))))) *
        ((x ^ k.toNat * x ^ (n - m + k).toNat) * (y ^ (((l : ℤ) + n).toNat - (n - m + k).toNat) * y ^ (((l : ℤ) - n).toNat - k.toNat)) *
          (fct (l + n) / (fct (n - m + k) * fct (l + m - k)) * (fct (l - n) / (fct k * fct (l - n - k))))) := by
        rw [s1, s2, e1, e2, e3]
        field_simp
    _ = _ := by ring

/-! ## the rounding of the entries -/

theorem lib_upTo (h0 : 0 ≤ u) (h1 : u < 1) (ha : Accurate a u e) {c x y z : ℝ} (hc : 1 ≤ c) (h : UpTo c x y) (hz : a.lib y z) : UpTo (c * grow u 1) x z :=
  UpTo.rd h0 h1 hc h (ha.lib _ _ hz)

theorem op_upTo (h0 : 0 ≤ u) (h1 : u < 1) (ha : Accurate a u e) {c x y z : ℝ} (hc : 1 ≤ c) (h : UpTo c x y) (hz : a.op y z) : UpTo (c * grow u 1) x z :=
  UpTo.rd h0 h1 hc h (ha.op _ _ hz)

theorem spFactorial_fct {n : ℤ} (h : 0 ≤ n) : spFactorial n = fct n := by rw [spFactorial, if_neg (by omega)]; rfl

theorem factProd_upTo (h0 : 0 ≤ u) (h1 : u < 1) (ha : Accurate a u e) {x y : ℤ} (hx : 0 ≤ x) (hy : 0 ≤ y) {g : ℝ} (h : FactProd a x y g) : UpTo (grow u 3) (fct x * fct y) g := by
  obtain ⟨f, f', hf, hf', hg⟩ := h
  have G := grow_one_le h0 h1
  rw [spFactorial_fct hx] at hf
  rw [spFactorial_fct hy] at hf'
  have a1 := lib_upTo h0 h1 ha (G 0) (UpTo.refl (G 0)) hf
  have a2 := lib_upTo h0 h1 ha (G 0) (UpTo.refl (G 0)) hf'
  rw [grow_add h1] at a1 a2
  have a3 := a1.mul (G _) (G _) a2
  rw [grow_add h1] at a3
  have a4 := op_upTo h0 h1 ha (G _) a3 hg
  rwa [grow_add h1] at a4

theorem factRoot_upTo (h0 : 0 ≤ u) (h1 : u < 1) (ha : Accurate a u e) {x y : ℤ} (hx : 0 ≤ x) (hy : 0 ≤ y) {r : ℝ} (h : FactRoot a x y r) :
    UpTo (grow u 4) (Real.sqrt (fct x * fct y)) r := by
  obtain ⟨g, hg, hr⟩ := h
  have G := grow_one_le h0 h1
  have a1 := op_upTo h0 h1 ha (G _) ((factProd_upTo h0 h1 ha hx hy hg).sqrt (G _)) hr
  rwa [grow_add h1] at a1

/-- One term of the sum. -/
theorem dTerm_upTo (h0 : 0 ≤ u) (h1 : u < 1) (ha : Accurate a u e) {l : ℕ} {m n k : ℤ} (k1 : 0 ≤ k) (k2 : m - n ≤ k) (k3 : k ≤ l + m) (k4 : k ≤ l - n) {beta v : ℝ}
    (h : DTerm a l m n beta k v) :
    UpTo (grow u (2 * l + 11)) ((-1) ^ k * Real.cos (beta / 2) ^ (2 * l + m - n - 2 * k).toNat * Real.sin (beta / 2) ^ (n - m + 2 * k).toNat /
      (fct k * fct (l + m - k)) / (fct (l - n - k) * fct (n - m + k))) v := by
  obtain ⟨c, s, cp, sp, p, g, w, h', hc, hs, hcp, hsp, hp, hg, hw, hh, hv⟩ := h
  have G := grow_one_le h0 h1
  have a1 := lib_upTo h0 h1 ha (G 0) (UpTo.refl (G 0)) hc
  have a2 := lib_upTo h0 h1 ha (G 0) (UpTo.refl (G 0)) hs
  rw [grow_add h1] at a1 a2
  have a3 := lib_upTo h0 h1 ha (one_le_pow₀ (G _)) (a1.pow (G _) (2 * l + m - n - 2 * k).toNat) hcp
  have a4 := lib_upTo h0 h1 ha (one_le_pow₀ (G _)) (a2.pow (G _) (n - m + 2 * k).toNat) hsp
  rw [zero_add, ← grow_pow h1, grow_add h1] at a3 a4
  have a5 := ((UpTo.refl (x := (-1 : ℝ) ^ k) (G 0)).mul (G _) (G _) a3).mul (by rw [grow_add h1]; exact G _) (G _) a4
  rw [grow_add h1, grow_add h1] at a5
  have a6 := op_upTo h0 h1 ha (G _) a5 hp
  rw [grow_add h1] at a6
  have a7 := op_upTo h0 h1 ha (by rw [grow_add h1]; exact G _) (a6.div (G _) (G _) (factProd_upTo h0 h1 ha k1 (by omega) hg)) hw
  rw [grow_add h1, grow_add h1] at a7
  have a8 := op_upTo h0 h1 ha (by rw [grow_add h1]; exact G _) (a7.div (G _) (G _) (factProd_upTo h0 h1 ha (by omega) (by omega) hh)) hv
  rw [grow_add h1, grow_add h1] at a8
  exact a8.mono (G _) (grow_mono h0 h1 (by omega))

/-- Waves of nearby phases are near. -/
theorem phase_lip (x y : ℝ) : ‖(⟨Real.cos x, -Real.sin x⟩ : ℂ) - ⟨Real.cos y, -Real.sin y⟩‖ ≤ |x - y| := by
  refine abs_le_of_sq_le_sq' ?_ (abs_nonneg _) |>.2
  rw [← Complex.normSq_eq_norm_sq, Complex.normSq_apply, Complex.sub_re, Complex.sub_im, sq_abs]
  have e1 : (Real.cos x - Real.cos y) * (Real.cos x - Real.cos y) + (-Real.sin x - -Real.sin y) * (-Real.sin x - -Real.sin y) = 2 - 2 * Real.cos (x - y) := by
    rw [Real.cos_sub]
    nlinarith [Real.sin_sq_add_cos_sq x, Real.sin_sq_add_cos_sq y]
  simp only
  rw [e1]
  have := Real.one_sub_sq_div_two_le_cos (x := x - y)
  nlinarith

theorem phase_norm (x : ℝ) : ‖(⟨Real.cos x, -Real.sin x⟩ : ℂ)‖ = 1 := by
  rw [← sq_eq_sq₀ (norm_nonneg _) zero_le_one, ← Complex.normSq_eq_norm_sq, Complex.normSq_apply]
  nlinarith [Real.sin_sq_add_cos_sq x]

theorem phase_exp (x : ℝ) : Complex.exp (-Complex.I * (x : ℂ)) = ⟨Real.cos x, -Real.sin x⟩ := by
  rw [show -Complex.I * (x : ℂ) = ((-x : ℝ) : ℂ) * Complex.I by push_cast; ring, Complex.exp_mul_I]
  apply Complex.ext
  · rw [← Complex.ofReal_cos, ← Complex.ofReal_sin, Complex.add_re, Complex.ofReal_re, Complex.re_ofReal_mul, Complex.I_re, mul_zero, add_zero, Real.cos_neg]
  · rw [← Complex.ofReal_cos, ← Complex.ofReal_sin, Complex.add_im, Complex.ofReal_im, Complex.im_ofReal_mul, Complex.I_im, mul_one, zero_add, Real.sin_neg]

theorem phase_within (h0 : 0 ≤ u) (h1 : u < 1) (ha : Accurate a u e) {l : ℕ} {m n : ℤ} (hm : m.natAbs ≤ l) (hn : n.natAbs ≤ l) {alpha gamma : ℝ} {E : ℂ}
    (h : Flt.Phase a m n alpha gamma E) :
    Within ((1 + relErr u 2 * (l * (|alpha| + |gamma|))) * grow u 1) 1 (Complex.exp (-Complex.I * (alpha * n + gamma * m))) E := by
  obtain ⟨p, q, y, hp, hq, hy, hre, him⟩ := h
  have G := grow_one_le h0 h1
  have a1 : Within (grow u 1) |alpha * n| (alpha * n) p := by
    have := Within.op h0 h1 (Within.refl (x := alpha * n) (w := |alpha * n|) (c := 1) le_rfl le_rfl) (ha.op _ _ hp)
    rwa [one_mul] at this
  have a2 : Within (grow u 1) |gamma * m| (gamma * m) q := by
    have := Within.op h0 h1 (Within.refl (x := gamma * m) (w := |gamma * m|) (c := 1) le_rfl le_rfl) (ha.op _ _ hq)
    rwa [one_mul] at this
  have a3 := Within.op h0 h1 (a1.add a2) (ha.op _ _ hy)
  rw [grow_add h1] at a3
  have a4 := a3.2
  rw [show grow u (1 + 1) - 1 = relErr u 2 by rw [grow]; ring, Real.norm_eq_abs] at a4
  have hb : |alpha * n| + |gamma * m| ≤ l * (|alpha| + |gamma|) := by
    have b1 : |(n : ℝ)| ≤ l := by rw [← Int.cast_abs, Int.abs_eq_natAbs]; exact_mod_cast hn
    have b2 : |(m : ℝ)| ≤ l := by rw [← Int.cast_abs, Int.abs_eq_natAbs]; exact_mod_cast hm
    rw [abs_mul, abs_mul]
    nlinarith [mul_le_mul_of_nonneg_left b1 (abs_nonneg alpha), mul_le_mul_of_nonneg_left b2 (abs_nonneg gamma)]
  have a5 : |y - (alpha * n + gamma * m)| ≤ relErr u 2 * (l * (|alpha| + |gamma|)) := a4.trans (mul_le_mul_of_nonneg_left hb (relErr_nonneg h0 h1 2))
  rw [show (alpha : ℂ) * n + gamma * m = ((alpha * n + gamma * m : ℝ) : ℂ) by push_cast; ring, phase_exp]
  refine Within.op h0 h1 (y := ⟨Real.cos y, -Real.sin y⟩) ⟨(phase_norm _).le, ?_⟩ ?_
  · rw [add_sub_cancel_left, mul_one]
    exact (phase_lip _ _).trans a5
  · refine abs_le_of_sq_le_sq' ?_ (by positivity) |>.2
    have k1 := ha.lib _ _ hre
    have k2 := ha.lib _ _ him
    rw [phase_norm, mul_one, ← Complex.normSq_eq_norm_sq, Complex.normSq_apply, Complex.sub_re, Complex.sub_im]
    have h3 : (E.re - Real.cos y) ^ 2 ≤ (u * |Real.cos y|) ^ 2 := sq_le_sq' (by linarith [(abs_le.1 k1).1]) (abs_le.1 k1).2
    have h4 : (E.im - -Real.sin y) ^ 2 ≤ (u * |-Real.sin y|) ^ 2 := sq_le_sq' (by linarith [(abs_le.1 k2).1]) (abs_le.1 k2).2
    rw [mul_pow, sq_abs] at h3 h4
    have := Real.sin_sq_add_cos_sq y
    simp only
    nlinarith

/-- A complex number scaled by a real one, both inexact. -/
theorem cscale_within' (h0 : 0 ≤ u) (h1 : u < 1) (ha : Accurate a u e) {c c' w w' s0 s : ℝ} {z0 z v : ℂ} (hc : 1 ≤ c) (hs : Within c w s0 s) (hz : Within c' w' z0 z)
    (h : CScale a s z v) : Within (c * c' * grow u 1) (w * w') ((s0 : ℂ) * z0) v :=
  Within.op h0 h1 (hs.ofReal.mul hz hc) (cop_err h0 ha h)

theorem sum_terms_within (h0 : 0 ≤ u) (h1 : u < 1) (ha : Accurate a u e) {l : ℕ} {m n : ℤ} (hm : m.natAbs ≤ l) (hn : n.natAbs ≤ l) {beta s : ℝ} {ts : List ℝ}
    (h : List.Forall₂ (DTerm a l m n beta) (zrange (max (m - n) 0) (min (l + m) (l - n))) ts) (hs : Adds a.op ts 0 s) :
    Within (grow u (3 * l + 12)) (∑ k ∈ Finset.Icc (max (m - n) 0) (min ((l : ℤ) + m) (l - n)),
        |Real.cos (beta / 2)| ^ (2 * l + m - n - 2 * k).toNat * |Real.sin (beta / 2)| ^ (n - m + 2 * k).toNat / (fct k * fct (l + m - k)) / (fct (l - n - k) * fct (n - m + k)))
      (∑ k ∈ Finset.Icc (max (m - n) 0) (min ((l : ℤ) + m) (l - n)), (-1) ^ k * Real.cos (beta / 2) ^ (2 * l + m - n - 2 * k).toNat * Real.sin (beta / 2) ^ (n - m + 2 * k).toNat /
        (fct k * fct (l + m - k)) / (fct (l - n - k) * fct (n - m + k))) s := by
  have G := grow_one_le h0 h1
  have hz : Within (grow u (2 * l + 11)) 0 0 (0 : ℝ) := Within.refl (by simp) (G _)
  have key := adds_within h0 h1 ha (is := zrange (max (m - n) 0) (min (l + m) (l - n)))
    (w := fun k => |Real.cos (beta / 2)| ^ (2 * l + m - n - 2 * k).toNat * |Real.sin (beta / 2)| ^ (n - m + 2 * k).toNat / (fct k * fct (l + m - k)) / (fct (l - n - k) * fct (n - m + k)))
    (x := fun k => (-1) ^ k * Real.cos (beta / 2) ^ (2 * l + m - n - 2 * k).toNat * Real.sin (beta / 2) ^ (n - m + 2 * k).toNat / (fct k * fct (l + m - k)) / (fct (l - n - k) * fct (n - m + k)))
    hs (G (2 * l + 11)) hz ?_
  · rw [zrange_sum, zrange_sum, zero_add, zero_add, grow_add h1] at key
    refine key.mono (G _) (grow_mono h0 h1 ?_) le_rfl
    rw [zrange_length]
    omega
  · rw [List.forall₂_iff_get] at h ⊢
    refine ⟨h.1, fun i hi hi' => ?_⟩
    have hk : (zrange (max (m - n) 0) (min ((l : ℤ) + m) (l - n))).get ⟨i, hi⟩ ∈ zrange (max (m - n) 0) (min ((l : ℤ) + m) (l - n)) := List.get_mem _ _
    have hk := zrange_mem hk
    have := (dTerm_upTo h0 h1 ha (by omega) (by omega) (by omega) (by omega) (h.2 i hi hi')).within (G _)
    refine this.mono (G _) le_rfl (le_of_eq ?_)
    rw [abs_div, abs_div, abs_mul, abs_mul, abs_pow, abs_pow, abs_zpow, abs_neg, abs_one, one_zpow, one_mul, abs_of_pos (mul_pos (fct_pos' _) (fct_pos' _)),
      abs_of_pos (mul_pos (fct_pos' _) (fct_pos' _))]

/-- The exact entry in the form that the program evaluates. -/
theorem Dlmn_form {l : ℕ} {m n : ℤ} (hm : m.natAbs ≤ l) (hn : n.natAbs ≤ l) (alpha beta gamma : ℝ) : Newt.Dlmn l m n alpha beta gamma =
    ((Real.sqrt (fct (l - n) * fct (l + n)) : ℝ) : ℂ) * (((Real.sqrt (fct (l - m) * fct (l + m)) : ℝ) : ℂ) *
      (((∑ k ∈ Finset.Icc (max (m - n) 0) (min ((l : ℤ) + m) (l - n)), (-1) ^ k * Real.cos (beta / 2) ^ (2 * l + m - n - 2 * k).toNat * Real.sin (beta / 2) ^ (n - m + 2 * k).toNat /
        (fct k * fct (l + m - k)) / (fct (l - n - k) * fct (n - m + k)) : ℝ) : ℂ) * (Complex.exp (-Complex.I * (alpha * n + gamma * m)) * (-1) ^ (n - m)))) := by
  simp only [Newt.Dlmn]
  rw [spFactorial_fct (show 0 ≤ (l : ℤ) - m by omega), spFactorial_fct (show 0 ≤ (l : ℤ) + m by omega), spFactorial_fct (show 0 ≤ (l : ℤ) - n by omega),
    spFactorial_fct (show 0 ≤ (l : ℤ) + n by omega)]
  have e1 : (∑ k ∈ Finset.Icc (max (m - n) 0) (min ((l : ℤ) + m) (l - n)),
      (-1 : ℝ) ^ k * Real.cos (beta / 2) ^ (2 * l + m - n - 2 * k) * Real.sin (beta / 2) ^ (n - m + 2 * k)
      / (spFactorial k * spFactorial (l + m - k)) / (spFactorial (l - n - k) * spFactorial (n - m + k))) =
      ∑ k ∈ Finset.Icc (max (m - n) 0) (min ((l : ℤ) + m) (l - n)), (-1) ^ k * Real.cos (beta / 2) ^ (2 * l + m - n - 2 * k).toNat * Real.sin (beta / 2) ^ (n - m + 2 * k).toNat /
        (fct k * fct (l + m - k)) / (fct (l - n - k) * fct (n - m + k)) := by
    refine Finset.sum_congr rfl fun k hk => ?_
    rw [Finset.mem_Icc] at hk
    rw [spFactorial_fct (show 0 ≤ k by omega), spFactorial_fct (show 0 ≤ (l : ℤ) + m - k by omega), spFactorial_fct (show 0 ≤ (l : ℤ) - n - k by omega),
      spFactorial_fct (show 0 ≤ n - m + k by omega), ← zpow_natCast (Real.cos (beta / 2)), ← zpow_natCast (Real.sin (beta / 2)), Int.toNat_of_nonneg (by omega),
      Int.toNat_of_nonneg (by omega)]
  rw [e1]
  ring

/-- One entry. -/
theorem Dlmn_within (h0 : 0 ≤ u) (h1 : u < 1) (ha : Accurate a u e) {l : ℕ} {m n : ℤ} (hm : m.natAbs ≤ l) (hn : n.natAbs ≤ l) {alpha beta gamma : ℝ} {D : ℂ}
    (h : Flt.Dlmn a l m n alpha beta gamma D) : Within (wignerGrow u alpha gamma l) (wignerAbs l n m beta) (Newt.Dlmn l m n alpha beta gamma) D := by
  obtain ⟨ts, s, E, z, r, w, r', hts, hs, hE, hz, hr, hw, hr', hD⟩ := h
  have G := grow_one_le h0 h1
  have P : 1 ≤ 1 + relErr u 2 * (l * (|alpha| + |gamma|)) := by
    have := relErr_nonneg h0 h1 2
    have : 0 ≤ relErr u 2 * (l * (|alpha| + |gamma|)) := by positivity
    linarith
  have a1 := sum_terms_within h0 h1 ha hm hn hts hs
  have a2 : Within ((1 + relErr u 2 * (l * (|alpha| + |gamma|))) * grow u 1) 1 (Complex.exp (-Complex.I * (alpha * n + gamma * m)) * (-1) ^ (n - m)) (E * (-1) ^ (n - m)) := by
    have hsg : Within 1 1 ((-1 : ℂ) ^ (n - m)) ((-1) ^ (n - m)) := Within.refl (by rw [norm_zpow, norm_neg, norm_one, one_zpow]) le_rfl
    have := (phase_within h0 h1 ha hm hn hE).mul hsg (one_le_mul_of_one_le_of_one_le P (G _))
    rwa [mul_one, mul_one] at this
  have a3 := cscale_within' h0 h1 ha (G _) a1 a2 hz
  have a4 := cscale_within' h0 h1 ha (G _) ((factRoot_upTo h0 h1 ha (by omega) (by omega) hr).within (G _)) a3 hw
  have a5 := cscale_within' h0 h1 ha (G _) ((factRoot_upTo h0 h1 ha (by omega) (by omega) hr').within (G _)) a4 hD
  rw [Dlmn_form hm hn, wignerAbs_eq hn hm]
  rw [abs_of_nonneg (Real.sqrt_nonneg _), abs_of_nonneg (Real.sqrt_nonneg _)] at a5
  refine a5.mono ?_ (le_of_eq ?_) (le_of_eq (by ring))
  · refine one_le_mul_of_one_le_of_one_le (one_le_mul_of_one_le_of_one_le (G _) (one_le_mul_of_one_le_of_one_le (one_le_mul_of_one_le_of_one_le (G _)
      (one_le_mul_of_one_le_of_one_le (one_le_mul_of_one_le_of_one_le (G _) (one_le_mul_of_one_le_of_one_le P (G _))) (G _))) (G _))) (G _)
  · rw [wignerGrow]
    have := show grow u (3 * l + 24) = 1 + relErr u (3 * l + 24) from rfl
    rw [← this, show 3 * l + 24 = 4 + (4 + ((3 * l + 12) + 1 + 1) + 1) + 1 by ring]
    simp only [← grow_add h1]
    ring

/-! ## scalar products -/

/-- Real products, rounded or fused, summed in any order. -/
theorem real_dot_err (h0 : 0 ≤ u) (h1 : u < 1) (ha : Accurate a u e) {P : List (ℝ × ℝ)} {xs : List ℝ} {s : ℝ} (h : List.Forall₂ (fun (i : ℝ × ℝ) x => Flt.Prod a i.1 i.2 x) P xs)
    (hs : Flt.Sum a.op xs s) : |s - (P.map fun i => i.1 * i.2).sum| ≤ relErr u (P.length + 1) * (P.map fun i => |i.1 * i.2|).sum := by
  have h2 := sum_err h0 h1 ha hs
  have key : |xs.sum - (P.map fun i => i.1 * i.2).sum| ≤ (grow u 1 - 1) * (P.map fun i => |i.1 * i.2|).sum ∧
      (xs.map fun x => |x|).sum ≤ grow u 1 * (P.map fun i => |i.1 * i.2|).sum := by
    clear h2 hs
    induction h with
    | nil => simp
    | cons hp _ ih =>
      have w := prod_within h0 h1 ha hp
      have w1 := w.2
      have w2 := w.size
      rw [Real.norm_eq_abs] at w1 w2
      simp only [List.sum_cons, List.map_cons]
      obtain ⟨i1, i2⟩ := ih
      refine ⟨?_, by rw [mul_add]; exact add_le_add w2 i2⟩
      rw [mul_add, add_sub_add_comm]
      exact (abs_add_le _ _).trans (add_le_add w1 i1)
  have hl : xs.length = P.length := h.length_eq.symm
  rw [hl] at h2
  have hg := grow_add h1 P.length 1
  rw [grow, grow, grow] at hg
  have k1 := mul_le_mul_of_nonneg_left key.2 (relErr_nonneg h0 h1 P.length)
  have k2 := key.1
  rw [grow] at k1 k2
  calc |s - (P.map fun i => i.1 * i.2).sum| = |(s - xs.sum) + (xs.sum - (P.map fun i => i.1 * i.2).sum)| := by congr 1; ring
    _ ≤ _ := abs_add_le _ _
    _ ≤ relErr u P.length * ((1 + relErr u 1) * (P.map fun i => |i.1 * i.2|).sum) + (1 + relErr u 1 - 1) * (P.map fun i => |i.1 * i.2|).sum :=
        add_le_add (h2.trans k1) k2
    _ = ((1 + relErr u P.length) * (1 + relErr u 1) - 1) * (P.map fun i => |i.1 * i.2|).sum := by ring
    _ = _ := by rw [hg]; ring

theorem dotRe_sum {M : Type} [AddCommMonoid M] (l : ℕ) (D q : ℤ → ℂ) (f : ℝ × ℝ → M) :
    ((dotRe l D q).map f).sum = ∑ n ∈ Finset.Icc (-(l : ℤ)) l, (f ((D n).re, (q n).re) + f (-(D n).im, (q n).im)) := by
  rw [dotRe, flatMap_sum (M := M), zrange_sum]
  simp

theorem dotIm_sum {M : Type} [AddCommMonoid M] (l : ℕ) (D q : ℤ → ℂ) (f : ℝ × ℝ → M) :
    ((dotIm l D q).map f).sum = ∑ n ∈ Finset.Icc (-(l : ℤ)) l, (f ((D n).re, (q n).im) + f ((D n).im, (q n).re)) := by
  rw [dotIm, flatMap_sum (M := M), zrange_sum]
  simp

theorem dot_length (l : ℕ) (D q : ℤ → ℂ) : (dotRe l D q).length = 4 * l + 2 ∧ (dotIm l D q).length = 4 * l + 2 := by
  constructor
  · rw [show (dotRe l D q).length = ((dotRe l D q).map fun _ => 1).sum by simp, dotRe_sum]
    simp; omega
  · rw [show (dotIm l D q).length = ((dotIm l D q).map fun _ => 1).sum by simp, dotIm_sum]
    simp; omega

theorem cdot_err (h0 : 0 ≤ u) (h1 : u < 1) (ha : Accurate a u e) {l : ℕ} {D q : ℤ → ℂ} {z : ℂ} (h : CDot a l D q z) :
    ‖z - ∑ n ∈ Finset.Icc (-(l : ℤ)) l, D n * q n‖ ≤ relErr u (8 * l + 6) * ∑ n ∈ Finset.Icc (-(l : ℤ)) l, ‖D n‖ * ‖q n‖ := by
  obtain ⟨⟨xs, hx, hs⟩, ys, hy, ht⟩ := h
  have k1 := real_dot_err h0 h1 ha hx hs
  have k2 := real_dot_err h0 h1 ha hy ht
  rw [(dot_length l D q).1, dotRe_sum, dotRe_sum] at k1
  rw [(dot_length l D q).2, dotIm_sum, dotIm_sum] at k2
  have t0 := relErr_nonneg h0 h1 (4 * l + 2 + 1)
  have hN : 0 ≤ ∑ n ∈ Finset.Icc (-(l : ℤ)) l, ‖D n‖ * ‖q n‖ := Finset.sum_nonneg fun n _ => by positivity
  have hterm : ∀ z w : ℂ, |z.re * w.re| + |-z.im * w.im| ≤ ‖z‖ * ‖w‖ ∧ |z.re * w.im| + |z.im * w.re| ≤ ‖z‖ * ‖w‖ := by
    intro z w
    have b1 := two_products z.re z.im w.re w.im
    have b2 := two_products z.re z.im w.im w.re
    have hN : (‖z‖ * ‖w‖) ^ 2 = (z.re ^ 2 + z.im ^ 2) * (w.re ^ 2 + w.im ^ 2) := by
      rw [mul_pow, ← Complex.normSq_eq_norm_sq, ← Complex.normSq_eq_norm_sq, Complex.normSq_apply, Complex.normSq_apply]; ring
    rw [neg_mul, abs_neg]
    refine ⟨abs_le_of_sq_le_sq' (by rw [hN]; exact b1) (by positivity) |>.2, abs_le_of_sq_le_sq' (by rw [hN]; linarith) (by positivity) |>.2⟩
  have g1 : |z.re - ∑ n ∈ Finset.Icc (-(l : ℤ)) l, ((D n).re * (q n).re + -(D n).im * (q n).im)| ≤ relErr u (4 * l + 2 + 1) * ∑ n ∈ Finset.Icc (-(l : ℤ)) l, ‖D n‖ * ‖q n‖ :=
    k1.trans (mul_le_mul_of_nonneg_left (Finset.sum_le_sum fun n _ => (hterm _ _).1) t0)
  have g2 : |z.im - ∑ n ∈ Finset.Icc (-(l : ℤ)) l, ((D n).re * (q n).im + (D n).im * (q n).re)| ≤ relErr u (4 * l + 2 + 1) * ∑ n ∈ Finset.Icc (-(l : ℤ)) l, ‖D n‖ * ‖q n‖ :=
    k2.trans (mul_le_mul_of_nonneg_left (Finset.sum_le_sum fun n _ => (hterm _ _).2) t0)
  have r1 : z.re - ∑ n ∈ Finset.Icc (-(l : ℤ)) l, ((D n).re * (q n).re + -(D n).im * (q n).im) = (z - ∑ n ∈ Finset.Icc (-(l : ℤ)) l, D n * q n).re := by
    rw [Complex.sub_re, Complex.re_sum]
    congr 1
    exact Finset.sum_congr rfl fun n _ => by rw [Complex.mul_re]; ring
  have r2 : z.im - ∑ n ∈ Finset.Icc (-(l : ℤ)) l, ((D n).re * (q n).im + (D n).im * (q n).re) = (z - ∑ n ∈ Finset.Icc (-(l : ℤ)) l, D n * q n).im := by
    rw [Complex.sub_im, Complex.im_sum]
    congr 1
  rw [r1] at g1
  rw [r2] at g2
  have hadd := relErr_add h1 (4 * l + 2 + 1) (4 * l + 2 + 1)
  rw [show 4 * l + 2 + 1 + (4 * l + 2 + 1) = 8 * l + 6 by ring] at hadd
  refine (Complex.norm_le_abs_re_add_abs_im _).trans ((add_le_add g1 g2).trans ?_)
  rw [← add_mul]
  exact mul_le_mul_of_nonneg_right (by nlinarith) hN

theorem cdot_within (h0 : 0 ≤ u) (h1 : u < 1) (ha : Accurate a u e) {l : ℕ} {D D0 q q0 : ℤ → ℂ} {wD wq : ℤ → ℝ} {cD cq : ℝ} (hcD : 1 ≤ cD)
    (hD : ∀ n : ℤ, n.natAbs ≤ l → Within cD (wD n) (D0 n) (D n)) (hq : ∀ n : ℤ, n.natAbs ≤ l → Within cq (wq n) (q0 n) (q n)) {z : ℂ} (h : CDot a l D q z) :
    Within (cD * cq * grow u (8 * l + 6)) (∑ n ∈ Finset.Icc (-(l : ℤ)) l, wD n * wq n) (∑ n ∈ Finset.Icc (-(l : ℤ)) l, D0 n * q0 n) z := by
  have hmem : ∀ n ∈ Finset.Icc (-(l : ℤ)) l, n.natAbs ≤ l := fun n hn => by rw [Finset.mem_Icc] at hn; omega
  have k1 : Within (cD * cq) (∑ n ∈ Finset.Icc (-(l : ℤ)) l, wD n * wq n) (∑ n ∈ Finset.Icc (-(l : ℤ)) l, D0 n * q0 n) (∑ n ∈ Finset.Icc (-(l : ℤ)) l, D n * q n) :=
    Within.finsum _ _ _ _ fun n hn => (hD n (hmem n hn)).mul (hq n (hmem n hn)) hcD
  have k2 : ∑ n ∈ Finset.Icc (-(l : ℤ)) l, ‖D n‖ * ‖q n‖ ≤ cD * cq * ∑ n ∈ Finset.Icc (-(l : ℤ)) l, wD n * wq n := by
    rw [Finset.mul_sum]
    refine Finset.sum_le_sum fun n hn => ?_
    rw [← norm_mul]
    exact ((hD n (hmem n hn)).mul (hq n (hmem n hn)) hcD).size
  refine ⟨k1.1, ?_⟩
  have k3 := mul_le_mul_of_nonneg_left k2 (relErr_nonneg h0 h1 (8 * l + 6))
  calc ‖z - ∑ n ∈ Finset.Icc (-(l : ℤ)) l, D0 n * q0 n‖
      = ‖(z - ∑ n ∈ Finset.Icc (-(l : ℤ)) l, D n * q n) + (∑ n ∈ Finset.Icc (-(l : ℤ)) l, D n * q n - ∑ n ∈ Finset.Icc (-(l : ℤ)) l, D0 n * q0 n)‖ := by congr 1; ring
    _ ≤ _ := norm_add_le _ _
    _ ≤ relErr u (8 * l + 6) * (cD * cq * ∑ n ∈ Finset.Icc (-(l : ℤ)) l, wD n * wq n) + (cD * cq - 1) * ∑ n ∈ Finset.Icc (-(l : ℤ)) l, wD n * wq n :=
        add_le_add ((cdot_err h0 h1 ha h).trans k3) k1.2
    _ = _ := by rw [grow]; ring

theorem wignerGrow_one_le (h0 : 0 ≤ u) (h1 : u < 1) (alpha gamma : ℝ) (l : ℕ) : 1 ≤ wignerGrow u alpha gamma l := by
  refine one_le_mul_of_one_le_of_one_le (grow_one_le h0 h1 _) ?_
  have := relErr_nonneg h0 h1 2
  have : 0 ≤ relErr u 2 * (l * (|alpha| + |gamma|)) := by positivity
  linarith

theorem rotGrow_one_le (h0 : 0 ≤ u) (h1 : u < 1) (alpha gamma : ℝ) (l : ℕ) : 1 ≤ rotGrow u alpha gamma l :=
  one_le_mul_of_one_le_of_one_le (wignerGrow_one_le h0 h1 _ _ _) (grow_one_le h0 h1 _)

theorem wignerAbs_zero (beta : ℝ) : wignerAbs 0 0 0 beta = 1 := by
  rw [wignerAbs_eq (by simp) (by simp)]
  simp [fct]

/-- The matrix that multiplies the moments. -/
theorem bigD_zero' (alpha beta gamma : ℝ) : bigD 0 alpha beta gamma 0 0 = 1 := by
  rw [← Dlmn_eq 0 0 0 (by simp) (by simp), Newt.Dlmn]
  simp [spFactorial]

/-- A rotation of inexact moments. -/
theorem rotDs_within (h0 : 0 ≤ u) (h1 : u < 1) (ha : Accurate a u e) {L : ℕ} {q q' : Mom L} {ds : List (ℤ → ℤ → ℂ)} (hlen : ds.length = L + 1) {alpha beta gamma : ℝ}
    (hds : ∀ l, l ≤ L → Flt.Dl a l alpha beta gamma (ds.getD l 0)) {q0 : ℕ → ℤ → ℂ} {w : ℕ → ℤ → ℝ} {c : ℝ} (hc : 1 ≤ c) {cj : Bool} (h : Flt.rotate_qlm_Ds a q ds cj q')
    {l : ℕ} {m : ℤ} (hl : l ≤ L) (hm : m.natAbs ≤ l) (hq : ∀ n : ℤ, n.natAbs ≤ l → Within c (w l n) (q0 l n) (q.get l n)) :
    Within (rotGrow u alpha gamma l * c) (∑ n ∈ Finset.Icc (-(l : ℤ)) l, (if cj then wignerAbs l n m beta else wignerAbs l m n beta) * w l n)
      (∑ n ∈ Finset.Icc (-(l : ℤ)) l, (if cj then (starRingEnd ℂ) (bigD l alpha beta gamma n m) else bigD l alpha beta gamma m n) * q0 l n) (q'.get l m) := by
  rcases h with ⟨h, -⟩ | ⟨-, f, hf, rfl⟩
  · exact absurd hlen h
  rw [Mom.get_ofFn _ hl (by omega)]
  have kW := wignerGrow_one_le h0 h1 alpha gamma l
  by_cases hl0 : 1 ≤ l
  · rw [if_pos ⟨hl0, hm⟩]
    have hD : ∀ n : ℤ, n.natAbs ≤ l → Within (wignerGrow u alpha gamma l) (if cj then wignerAbs l n m beta else wignerAbs l m n beta)
        (if cj then (starRingEnd ℂ) (bigD l alpha beta gamma n m) else bigD l alpha beta gamma m n)
        (if cj then (starRingEnd ℂ) (ds.getD l 0 n m) else ds.getD l 0 m n) := by
      intro n hn
      cases cj
      · simp only [Bool.false_eq_true, if_false]
        rw [← Dlmn_eq l n m hn hm]
        exact Dlmn_within h0 h1 ha hn hm (hds l hl m n hm hn)
      · simp only [if_true]
        rw [← Dlmn_eq l m n hm hn]
        exact (Dlmn_within h0 h1 ha hm hn (hds l hl n m hn hm)).conj
    refine (cdot_within h0 h1 ha kW hD hq (hf l m hl0 hl hm)).mono ?_ (le_of_eq ?_) le_rfl
    · exact one_le_mul_of_one_le_of_one_le (one_le_mul_of_one_le_of_one_le kW hc) (grow_one_le h0 h1 _)
    · rw [rotGrow, grow]; ring
  · obtain rfl : l = 0 := by omega
    obtain rfl : m = 0 := by omega
    rw [if_neg (by simp)]
    have := hq 0 (by simp)
    simp only [CharP.cast_eq_zero, neg_zero, Finset.Icc_self, Finset.sum_singleton, wignerAbs_zero, bigD_zero', map_one, ite_self, one_mul]
    exact this.mono hc (le_mul_of_one_le_left (by linarith) (rotGrow_one_le h0 h1 _ _ _)) le_rfl

end Newt
