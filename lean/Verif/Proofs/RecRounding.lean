import Verif.Proofs.WigRounding
import Verif.Proofs.HarmLip
import Verif.Spec.RecRounding
import Mathlib.Analysis.SpecialFunctions.Trigonometric.Bounds

/-!
# Rounding errors of the recursive Wigner matrices
-/

namespace Newt

open Spec Flt

variable {a : Arith} {u : ℝ} {e : ℕ → ℝ}

theorem relErr_le (h0 : 0 ≤ u) {k : ℕ} (hk : k * u ≤ 1 / 50) : relErr u k ≤ k * u * (50 / 49) := by
  have hu1 : 0 ≤ (k : ℝ) * u := by positivity
  rcases Nat.eq_zero_or_pos k with rfl | hk0
  · simp [relErr]
  have hk1 : (1 : ℝ) ≤ k := by exact_mod_cast hk0
  have h1 : u ≤ 1 / 50 := by nlinarith
  have hb : 1 - k * u ≤ (1 - u) ^ k := by
    have := one_add_mul_le_pow (a := -u) (by linarith) k
    linarith [this, show (1 + -u) ^ k = (1 - u) ^ k by ring_nf]
  have hp : 0 < 1 - k * u := by linarith
  rw [relErr]
  have : ((1 - u) ^ k)⁻¹ ≤ (1 - k * u)⁻¹ := inv_anti₀ hp hb
  refine (sub_le_sub_right this 1).trans ?_
  rw [sub_le_iff_le_add, inv_le_iff_one_le_mul₀ hp]
  nlinarith

/-! ## The exact matrix -/

theorem Ht_abs_le {c s : ℝ} (hcs : c ^ 2 + s ^ 2 = 1) {n : ℕ} {i j : ℤ} (hi : i.natAbs ≤ n) (hj : j.natAbs ≤ n) : |Ht n c s i j| ≤ 1 := by
  have h := dcs_orth c s hcs n i i hi hi
  rw [if_pos rfl] at h
  have h2 : dcs c s n i j * dcs c s n i j ≤ 1 := by
    rw [← h]
    exact Finset.single_le_sum (f := fun k => dcs c s n i k * dcs c s n i k) (fun k _ => mul_self_nonneg _) (by rw [Finset.mem_Icc]; omega)
  have h3 : Ht n c s i j * Ht n c s i j ≤ 1 := by
    have e1 := epsm_sq i
    have e2 := epsm_sq (-j)
    calc Ht n c s i j * Ht n c s i j = (epsm i * epsm i) * (epsm (-j) * epsm (-j)) * (dcs c s n i j * dcs c s n i j) := by rw [Ht]; ring
      _ ≤ 1 := by rw [e1, e2]; linarith
  exact abs_le_of_sq_le_sq' (by nlinarith) zero_le_one |> abs_le.2

theorem rsign_abs (m : ℤ) : |rsign m| = 1 := by rw [rsign]; split_ifs <;> simp

theorem dnm_upTo (h0 : 0 ≤ u) (h1 : u < 1) (ha : Accurate a u e) {n m : ℤ} {d : ℝ} (h : Dnm a n m d) : UpTo (grow u 1) (dnm n m) d := by
  obtain ⟨r, hr, rfl⟩ := h
  have a1 := op_upTo h0 h1 ha le_rfl (UpTo.refl le_rfl) hr
  rw [one_mul] at a1
  obtain ⟨θ, rfl, h2, h3⟩ := a1
  exact ⟨θ, by rw [dnm]; ring, h2, h3⟩

theorem bnm_upTo (h0 : 0 ≤ u) (h1 : u < 1) (ha : Accurate a u e) {n m : ℤ} {d : ℝ} (h : Bnm a n m d) : UpTo (grow u 2) (bnm n m) d := by
  obtain ⟨x, r, hx, hr, rfl⟩ := h
  have G := grow_one_le h0 h1
  have a1 := op_upTo h0 h1 ha le_rfl (UpTo.refl le_rfl) hx
  rw [one_mul] at a1
  have a2 := op_upTo h0 h1 ha (G _) (a1.sqrt (G _)) hr
  rw [grow_add h1] at a2
  obtain ⟨θ, rfl, h2, h3⟩ := a2
  exact ⟨θ, by rw [bnm]; ring, h2, h3⟩

theorem anm_upTo (h0 : 0 ≤ u) (h1 : u < 1) (ha : Accurate a u e) {n m : ℤ} {d : ℝ} (h : Anm a n m d) : UpTo (grow u 2) (anm n m) d := by
  obtain ⟨x, hx, hr⟩ := h
  have G := grow_one_le h0 h1
  have a1 := op_upTo h0 h1 ha le_rfl (UpTo.refl le_rfl) hx
  rw [one_mul] at a1
  have a2 := op_upTo h0 h1 ha (G _) (a1.sqrt (G _)) hr
  rw [grow_add h1] at a2
  rwa [anm]

theorem dnm_abs (n m : ℤ) : |dnm n m| = Real.sqrt ((n - m) * (n + m + 1)) / 2 := by
  rw [dnm, abs_div, abs_mul, rsign_abs, one_mul, abs_of_nonneg (Real.sqrt_nonneg _), abs_of_pos (by norm_num : (0 : ℝ) < 2)]

theorem dnm_neg (n m : ℤ) : |dnm n (-m - 1)| = |dnm n m| := by
  rw [dnm_abs, dnm_abs]; congr 2; push_cast; ring

/-- The coefficients decrease away from the middle. -/
theorem dnm_mono (n : ℕ) {i j : ℤ} (hi : 0 ≤ i) (hij : i ≤ j) : |dnm n j| ≤ |dnm n i| := by
  rw [dnm_abs, dnm_abs]
  have h1 : (0 : ℝ) ≤ i := by exact_mod_cast hi
  have h2 : (i : ℝ) ≤ j := by exact_mod_cast hij
  have h3 : (0 : ℝ) ≤ n := Nat.cast_nonneg n
  refine div_le_div_of_nonneg_right (Real.sqrt_le_sqrt ?_) (by norm_num)
  push_cast
  nlinarith

theorem dnm_prev (n : ℕ) {i : ℤ} (hi : 1 ≤ i) (hin : i < n) : |dnm n (i - 1)| ≤ 3 / 2 * |dnm n i| := by
  rw [dnm_abs, dnm_abs]
  have h1 : (1 : ℝ) ≤ i := by exact_mod_cast hi
  have h2 : (i : ℝ) + 1 ≤ n := by exact_mod_cast hin
  have h4 : Real.sqrt (((n : ℤ) - (i - 1 : ℤ) : ℝ) * ((n : ℤ) + (i - 1 : ℤ) + 1)) ≤ 3 / 2 * Real.sqrt (((n : ℤ) - i : ℝ) * ((n : ℤ) + i + 1)) := by
    rw [Real.sqrt_le_iff]
    refine ⟨by positivity, ?_⟩
    rw [mul_pow, Real.sq_sqrt (by push_cast; nlinarith)]
    push_cast
    nlinarith
  push_cast at h4 ⊢
  linarith

/-! ## One step -/

theorem comb3 (h0 : 0 ≤ u) (h1 : u < 1) (ha : Accurate a u e) {w1 w2 w3 X1 X2 X3 t1 t2 t3 s s' g0 g v : ℝ} (k1 : Within (grow u 2) w1 X1 t1) (k2 : Within (grow u 2) w2 X2 t2)
    (k3 : Within (grow u 2) w3 X3 t3) (hs : a.op (t1 + t2) s) (hs' : a.op (s + t3) s') (hg : UpTo (grow u 1) g0 g) (hv : a.op (s' / g) v) :
    |v - (X1 + X2 + X3) / g0| ≤ relErr u 6 * ((w1 + w2 + w3) / |g0|) := by
  have G := grow_one_le h0 h1
  have a1 := op_within h0 h1 ha (k1.add k2) hs
  have a2 := op_within h0 h1 ha (a1.addk h0 h1 k3 (le_refl 3) (by omega)) hs'
  have a3 := a2.mul ((hg.inv (G _)).within (G _)) (G _)
  rw [grow_add h1] at a3
  have a4 := (op_within h0 h1 ha a3 (by rw [← div_eq_mul_inv]; exact hv)).2
  rw [Real.norm_eq_abs, abs_inv, grow] at a4
  rw [div_eq_mul_inv, div_eq_mul_inv]
  linarith

theorem comb2 (h0 : 0 ≤ u) (h1 : u < 1) (ha : Accurate a u e) {w1 w2 X1 X2 t1 t2 s g0 g v : ℝ} (k1 : Within (grow u 2) w1 X1 t1) (k2 : Within (grow u 2) w2 X2 t2)
    (hs : a.op (t1 + t2) s) (hg : UpTo (grow u 1) g0 g) (hv : a.op (s / g) v) : |v - (X1 + X2) / g0| ≤ relErr u 6 * ((w1 + w2) / |g0|) := by
  have G := grow_one_le h0 h1
  have a1 := op_within h0 h1 ha (k1.add k2) hs
  have a3 := a1.mul ((hg.inv (G _)).within (G _)) (G _)
  rw [grow_add h1] at a3
  have a4 := op_within h0 h1 ha a3 (by rw [← div_eq_mul_inv]; exact hv)
  have a5 := (a4.k h0 h1 (show 3 + 1 + 1 ≤ 6 by omega) le_rfl).2
  rw [Real.norm_eq_abs, abs_inv, grow] at a5
  rw [div_eq_mul_inv, div_eq_mul_inv]
  linarith

theorem cell_within (h0 : 0 ≤ u) (h1 : u < 1) (ha : Accurate a u e) {f0 f h t : ℝ} (hf : UpTo (grow u 1) f0 f) (ht : a.op (f * h) t) : Within (grow u 2) (|f0| * |h|) (f0 * h) t := by
  have G := grow_one_le h0 h1
  have := op_upTo h0 h1 ha (one_le_mul_of_one_le_of_one_le (G _) le_rfl) (hf.mul (G 1) le_rfl (UpTo.refl (x := h) le_rfl)) ht
  rw [mul_one, grow_add h1] at this
  rw [← abs_mul]
  exact this.within (G _)

/-- What an error in the inputs and the roundings do to a combination with coefficients of relative size at most `3/2`, 1 and 1. -/
theorem step_bound {γ f0 d0 d0' g0 v h1 h2 h3 H1 H2 H3 B1 B2 r : ℝ} (hγ : 0 ≤ γ) (hg : g0 ≠ 0) (hf : |f0| ≤ r * |g0|) (hd : |d0| ≤ |g0|) (hd' : |d0'| ≤ |g0|)
    (e1 : |h1 - H1| ≤ B1) (e2 : |h2 - H2| ≤ B2) (e3 : |h3 - H3| ≤ B2) (z1 : |H1| ≤ 1) (z2 : |H2| ≤ 1) (z3 : |H3| ≤ 1)
    (hv : |v - (f0 * h1 + d0 * h2 + d0' * h3) / g0| ≤ γ * ((|f0| * |h1| + |d0| * |h2| + |d0'| * |h3|) / |g0|)) :
    |v - (f0 * H1 + d0 * H2 + d0' * H3) / g0| ≤ (1 + γ) * (r * B1 + 2 * B2) + γ * (r + 2) := by
  have hg' : 0 < |g0| := abs_pos.2 hg
  have q1 : |f0| / |g0| ≤ r := by rw [div_le_iff₀ hg']; exact hf
  have q2 : |d0| / |g0| ≤ 1 := by rw [div_le_iff₀ hg']; linarith
  have q3 : |d0'| / |g0| ≤ 1 := by rw [div_le_iff₀ hg']; linarith
  have s1 : |h1| ≤ 1 + B1 := by
    have := abs_add_le (h1 - H1) H1
    rw [sub_add_cancel] at this; linarith
  have s2 : |h2| ≤ 1 + B2 := by
    have := abs_add_le (h2 - H2) H2
    rw [sub_add_cancel] at this; linarith
  have s3 : |h3| ≤ 1 + B2 := by
    have := abs_add_le (h3 - H3) H3
    rw [sub_add_cancel] at this; linarith
  have p1 : 0 ≤ |f0| / |g0| := by positivity
  have p2 : 0 ≤ |d0| / |g0| := by positivity
  have p3 : 0 ≤ |d0'| / |g0| := by positivity
  have p0 : 0 ≤ B1 := (abs_nonneg _).trans e1
  have p0' : 0 ≤ B2 := (abs_nonneg _).trans e2
  have hr : 0 ≤ r := p1.trans q1
  have t1 : (|f0| * |h1| + |d0| * |h2| + |d0'| * |h3|) / |g0| ≤ r * (1 + B1) + 2 * (1 + B2) := by
    have : (|f0| * |h1| + |d0| * |h2| + |d0'| * |h3|) / |g0| = |f0| / |g0| * |h1| + |d0| / |g0| * |h2| + |d0'| / |g0| * |h3| := by ring
    rw [this]
    have i1 := mul_le_mul q1 s1 (abs_nonneg _) hr
    have i2 := mul_le_mul q2 s2 (abs_nonneg _) zero_le_one
    have i3 := mul_le_mul q3 s3 (abs_nonneg _) zero_le_one
    linarith
  have t2 : |(f0 * h1 + d0 * h2 + d0' * h3) / g0 - (f0 * H1 + d0 * H2 + d0' * H3) / g0| ≤ r * B1 + 2 * B2 := by
    have : (f0 * h1 + d0 * h2 + d0' * h3) / g0 - (f0 * H1 + d0 * H2 + d0' * H3) / g0 = f0 / g0 * (h1 - H1) + d0 / g0 * (h2 - H2) + d0' / g0 * (h3 - H3) := by ring
    rw [this]
    refine (abs_add_le _ _).trans ?_
    refine (add_le_add_left (abs_add_le _ _) _).trans ?_
    rw [abs_mul, abs_mul, abs_mul, abs_div, abs_div, abs_div]
    have i1 := mul_le_mul q1 e1 (abs_nonneg _) hr
    have i2 := mul_le_mul q2 e2 (abs_nonneg _) zero_le_one
    have i3 := mul_le_mul q3 e3 (abs_nonneg _) zero_le_one
    linarith
  have t3 := mul_le_mul_of_nonneg_left t1 hγ
  have := abs_sub_le v ((f0 * h1 + d0 * h2 + d0' * h3) / g0) ((f0 * H1 + d0 * H2 + d0' * H3) / g0)
  linarith


section steps

variable {c s : ℝ} {n : ℕ} {mp m : ℤ} {h1 h2 h3 v B1 B2 r : ℝ}

theorem step5_err (h0 : 0 ≤ u) (hu : u < 1) (ha : Accurate a u e) (hcs : c ^ 2 + s ^ 2 = 1) (hmp : 0 ≤ mp) (hmn : mp < n) (hm : mp + 1 ≤ m) (hm' : m < n)
    (hr : |dnm n (-mp)| ≤ r * |dnm n (-mp - 1)|) (h : Step5 a n mp m h1 h2 h3 v) (e1 : |h1 - Ht n c s (-mp + 1) m| ≤ B1) (e2 : |h2 - Ht n c s (-mp) (m - 1)| ≤ B2)
    (e3 : |h3 - Ht n c s (-mp) (m + 1)| ≤ B2) : |v - Ht n c s (-mp - 1) m| ≤ (1 + relErr u 6) * (r * B1 + 2 * B2) + relErr u 6 * (r + 2) := by
  obtain ⟨f, g, d, d', t1, t2, t3, q, q', hf, hg, hd, hd', ht1, ht2, ht3, hq, hq', hv⟩ := h
  have F := dnm_upTo h0 hu ha hf
  have G := dnm_upTo h0 hu ha hg
  have D := dnm_upTo h0 hu ha hd
  have D' := dnm_upTo h0 hu ha hd'
  have gn : dnm n (-mp - 1) ≠ 0 := dnm_ne n _ (by omega) (by omega)
  have k := comb3 h0 hu ha (cell_within h0 hu ha F ht1) (cell_within h0 hu ha D ht2) (cell_within h0 hu ha D' ht3).neg hq (by rw [← sub_eq_add_neg]; exact hq') G hv
  have lad := Ht_ladder hcs n (-mp) m (by omega) (by omega)
  have ex : (dnm n (-mp) * Ht n c s (-mp + 1) m + dnm n (m - 1) * Ht n c s (-mp) (m - 1) + -dnm n m * Ht n c s (-mp) (m + 1)) / dnm n (-mp - 1) = Ht n c s (-mp - 1) m := by
    rw [div_eq_iff gn]; linarith
  rw [← ex]
  refine step_bound (relErr_nonneg h0 hu 6) gn hr ?_ ?_ e1 e2 e3 (Ht_abs_le hcs (by omega) (by omega)) (Ht_abs_le hcs (by omega) (by omega)) (Ht_abs_le hcs (by omega) (by omega)) ?_
  · rw [dnm_neg]; exact dnm_mono n hmp (by omega)
  · rw [abs_neg, dnm_neg]; exact dnm_mono n hmp (by omega)
  · rw [abs_neg, neg_mul]; exact k

theorem end5_err (h0 : 0 ≤ u) (hu : u < 1) (ha : Accurate a u e) (hcs : c ^ 2 + s ^ 2 = 1) (hmp : 0 ≤ mp) (hmn : mp < n)
    (hr : |dnm n (-mp)| ≤ r * |dnm n (-mp - 1)|) (h : End5 a n mp h1 h2 v) (e1 : |h1 - Ht n c s (-mp + 1) n| ≤ B1) (e2 : |h2 - Ht n c s (-mp) (n - 1)| ≤ B2) :
    |v - Ht n c s (-mp - 1) n| ≤ (1 + relErr u 6) * (r * B1 + 2 * B2) + relErr u 6 * (r + 2) := by
  obtain ⟨f, g, d, t1, t2, q, hf, hg, hd, ht1, ht2, hq, hv⟩ := h
  have F := dnm_upTo h0 hu ha hf
  have G := dnm_upTo h0 hu ha hg
  have D := dnm_upTo h0 hu ha hd
  have gn : dnm n (-mp - 1) ≠ 0 := dnm_ne n _ (by omega) (by omega)
  have k := comb2 h0 hu ha (cell_within h0 hu ha F ht1) (cell_within h0 hu ha D ht2) hq G hv
  have lad := Ht_ladder hcs n (-mp) n (by omega) (by omega)
  rw [dnm_top, zero_mul, sub_zero] at lad
  have ex : (dnm n (-mp) * Ht n c s (-mp + 1) n + dnm n (n - 1) * Ht n c s (-mp) (n - 1) + 0 * 0) / dnm n (-mp - 1) = Ht n c s (-mp - 1) n := by
    rw [div_eq_iff gn]; linarith
  rw [← ex]
  refine step_bound (h3 := 0) (relErr_nonneg h0 hu 6) gn hr ?_ ?_ e1 e2 (by simpa using (abs_nonneg _).trans e2) (Ht_abs_le hcs (by omega) (by omega))
    (Ht_abs_le hcs (by omega) (by omega)) (by simp) ?_
  · rw [dnm_neg]; exact dnm_mono n hmp (by omega)
  · rw [abs_zero]; exact abs_nonneg _
  · simpa using k

theorem step4_err (h0 : 0 ≤ u) (hu : u < 1) (ha : Accurate a u e) (hcs : c ^ 2 + s ^ 2 = 1) (hmp : 1 ≤ mp) (hmn : mp < n) (hm : mp + 1 ≤ m) (hm' : m < n)
    (h : Step4 a n mp m h1 h2 h3 v) (e1 : |h1 - Ht n c s (mp - 1) m| ≤ B1) (e2 : |h2 - Ht n c s mp (m - 1)| ≤ B2)
    (e3 : |h3 - Ht n c s mp (m + 1)| ≤ B2) : |v - Ht n c s (mp + 1) m| ≤ (1 + relErr u 6) * (3 / 2 * B1 + 2 * B2) + relErr u 6 * (3 / 2 + 2) := by
  obtain ⟨f, g, d, d', t1, t2, t3, q, q', hf, hg, hd, hd', ht1, ht2, ht3, hq, hq', hv⟩ := h
  have F := dnm_upTo h0 hu ha hf
  have G := dnm_upTo h0 hu ha hg
  have D := dnm_upTo h0 hu ha hd
  have D' := dnm_upTo h0 hu ha hd'
  have gn : dnm n mp ≠ 0 := dnm_ne n _ (by omega) (by omega)
  have k := comb3 h0 hu ha (cell_within h0 hu ha F ht1) (cell_within h0 hu ha D ht2).neg (cell_within h0 hu ha D' ht3) (by rw [← sub_eq_add_neg]; exact hq) hq' G hv
  have lad := Ht_ladder hcs n mp m (by omega) (by omega)
  have ex : (dnm n (mp - 1) * Ht n c s (mp - 1) m + -dnm n (m - 1) * Ht n c s mp (m - 1) + dnm n m * Ht n c s mp (m + 1)) / dnm n mp = Ht n c s (mp + 1) m := by
    rw [div_eq_iff gn]; linarith
  rw [← ex]
  refine step_bound (relErr_nonneg h0 hu 6) gn (dnm_prev n hmp hmn) ?_ (dnm_mono n (by omega) (by omega)) e1 e2 e3 (Ht_abs_le hcs (by omega) (by omega)) (Ht_abs_le hcs (by omega) (by omega)) (Ht_abs_le hcs (by omega) (by omega)) ?_
  · rw [abs_neg]; exact dnm_mono n (by omega) (by omega)
  · rw [abs_neg, neg_mul]; exact k

theorem end4_err (h0 : 0 ≤ u) (hu : u < 1) (ha : Accurate a u e) (hcs : c ^ 2 + s ^ 2 = 1) (hmp : 1 ≤ mp) (hmn : mp < n)
    (h : End4 a n mp h1 h2 v) (e1 : |h1 - Ht n c s (mp - 1) n| ≤ B1) (e2 : |h2 - Ht n c s mp (n - 1)| ≤ B2) :
    |v - Ht n c s (mp + 1) n| ≤ (1 + relErr u 6) * (3 / 2 * B1 + 2 * B2) + relErr u 6 * (3 / 2 + 2) := by
  obtain ⟨f, g, d, t1, t2, q, hf, hg, hd, ht1, ht2, hq, hv⟩ := h
  have F := dnm_upTo h0 hu ha hf
  have G := dnm_upTo h0 hu ha hg
  have D := dnm_upTo h0 hu ha hd
  have gn : dnm n mp ≠ 0 := dnm_ne n _ (by omega) (by omega)
  have k := comb2 h0 hu ha (cell_within h0 hu ha F ht1) (cell_within h0 hu ha D ht2).neg (by rw [← sub_eq_add_neg]; exact hq) G hv
  have lad := Ht_ladder hcs n mp n (by omega) (by omega)
  rw [dnm_top, zero_mul, sub_zero] at lad
  have ex : (dnm n (mp - 1) * Ht n c s (mp - 1) n + -dnm n (n - 1) * Ht n c s mp (n - 1) + 0 * 0) / dnm n mp = Ht n c s (mp + 1) n := by
    rw [div_eq_iff gn]; linarith
  rw [← ex]
  refine step_bound (h3 := 0) (relErr_nonneg h0 hu 6) gn (dnm_prev n hmp hmn) ?_ ?_ e1 e2 (by simpa using (abs_nonneg _).trans e2) (Ht_abs_le hcs (by omega) (by omega))
    (Ht_abs_le hcs (by omega) (by omega)) (by simp) ?_
  · rw [abs_neg]; exact dnm_mono n (by omega) (by omega)
  · rw [abs_zero]; exact abs_nonneg _
  · rw [abs_neg, neg_mul]; simpa using k

end steps

/-! ## Row 1 -/

theorem bnm_abs (n m : ℤ) : |bnm n m| = Real.sqrt ((n - m - 1) * (n - m) / ((2 * n + 1) * (2 * n - 1))) := by
  rw [bnm, abs_mul, rsign_abs, one_mul, abs_of_nonneg (Real.sqrt_nonneg _)]

theorem sqrt_ratio {A B D t : ℝ} (hD : 0 < D) (ht : 0 ≤ t) (hB : 0 ≤ B) (h : A ≤ t ^ 2 * B) : Real.sqrt (A / D) ≤ t * Real.sqrt (B / D) := by
  rw [Real.sqrt_le_iff]
  refine ⟨by positivity, ?_⟩
  rw [mul_pow, Real.sq_sqrt (by positivity), ← mul_div_assoc]
  exact div_le_div_of_nonneg_right h hD.le

theorem row1_coeffs (n : ℕ) (hn : 1 ≤ n) (m : ℤ) (hm : 1 ≤ m) (hmn : m ≤ n) : bnm (n + 1) 0 ≠ 0 ∧ |bnm (n + 1) (-m - 1)| ≤ 5 / 2 * |bnm (n + 1) 0| ∧
    |bnm (n + 1) (m - 1)| ≤ 1 * |bnm (n + 1) 0| ∧ |anm n m| ≤ 3 / 2 * |bnm (n + 1) 0| := by
  have h1 : (1 : ℝ) ≤ n := by exact_mod_cast hn
  have h2 : (1 : ℝ) ≤ m := by exact_mod_cast hm
  have h3 : (m : ℝ) ≤ n := by exact_mod_cast hmn
  have hD : (0 : ℝ) < (2 * n + 3) * (2 * n + 1) := by positivity
  have b0 : |bnm (n + 1) 0| = Real.sqrt ((n * (n + 1)) / ((2 * n + 3) * (2 * n + 1))) := by
    rw [bnm_abs]; congr 1; push_cast; congr 1 <;> ring
  have bM : |bnm (n + 1) (-m - 1)| = Real.sqrt (((n + m + 1) * (n + m + 2)) / ((2 * n + 3) * (2 * n + 1))) := by
    rw [bnm_abs]; congr 1; push_cast; congr 1 <;> ring
  have bP : |bnm (n + 1) (m - 1)| = Real.sqrt (((n - m + 1) * (n - m + 2)) / ((2 * n + 3) * (2 * n + 1))) := by
    rw [bnm_abs]; congr 1; push_cast; congr 1 <;> ring
  have an : |anm n m| = Real.sqrt (((n + 1 + m) * (n + 1 - m)) / ((2 * n + 3) * (2 * n + 1))) := by
    rw [anm, abs_of_nonneg (Real.sqrt_nonneg _)]; congr 1; push_cast; congr 1; ring
  refine ⟨?_, ?_, ?_, ?_⟩
  · rw [← abs_pos, b0]
    exact Real.sqrt_pos.2 (by positivity)
  · rw [bM, b0]; exact sqrt_ratio hD (by norm_num) (by positivity) (by nlinarith)
  · rw [bP, b0]; exact sqrt_ratio hD (by norm_num) (by positivity) (by nlinarith)
  · rw [an, b0]; exact sqrt_ratio hD (by norm_num) (by positivity) (by nlinarith)

theorem row1_err (h0 : 0 ≤ u) (hu : u < 1) (ha : Accurate a u e) {n : ℕ} (hn : 1 ≤ n) {m : ℤ} (hm : 1 ≤ m) (hmn : m ≤ n) {beta cb sb hp hmi h v ε : ℝ} (hε : 0 ≤ ε)
    (hs : 0 ≤ Real.sin beta) (hcb : a.lib (Real.cos beta) cb) (hsb : a.lib (Real.sin beta) sb)
    (e1 : |hp - Ht (n + 1) (Real.cos (beta / 2)) (Real.sin (beta / 2)) 0 (m + 1)| ≤ ε) (e2 : |hmi - Ht (n + 1) (Real.cos (beta / 2)) (Real.sin (beta / 2)) 0 (m - 1)| ≤ ε)
    (e3 : |h - Ht (n + 1) (Real.cos (beta / 2)) (Real.sin (beta / 2)) 0 m| ≤ ε) (hr : Row1 a n m cb sb hp hmi h v) :
    |v - Ht n (Real.cos (beta / 2)) (Real.sin (beta / 2)) 1 m| ≤ 5 * ((1 + ε) * (1 + relErr u 11) - 1) := by
  obtain ⟨bM, bP, c, b, x, y, t, x', y', t', z, t'', q, q', hbM, hbP, hc, hb, hx, hy, ht, hx', hy', ht', hz, ht'', hq, hq', hv⟩ := hr
  have G := grow_one_le h0 hu
  have hcs : Real.cos (beta / 2) ^ 2 + Real.sin (beta / 2) ^ 2 = 1 := Real.cos_sq_add_sin_sq _
  obtain ⟨bn, rM, rP, rA⟩ := row1_coeffs n hn m hm hmn
  have ex := hRow1_row n hn beta hs m hm hmn (hInit n beta)
  rw [hRow1, setRow, if_pos ⟨rfl, hm, hmn⟩, hInit_row _ _ hs _ (by omega) (by push_cast; omega), hInit_row _ _ hs _ (by omega) (by push_cast; omega),
    hInit_row _ _ hs _ (by omega) (by push_cast; omega)] at ex
  set H1 := Ht (n + 1) (Real.cos (beta / 2)) (Real.sin (beta / 2)) 0 (m + 1) with hH1
  set H2 := Ht (n + 1) (Real.cos (beta / 2)) (Real.sin (beta / 2)) 0 (m - 1) with hH2
  set H3 := Ht (n + 1) (Real.cos (beta / 2)) (Real.sin (beta / 2)) 0 m with hH3
  have z1 : |H1| ≤ 1 := Ht_abs_le hcs (by omega) (by omega)
  have z2 : |H2| ≤ 1 := Ht_abs_le hcs (by omega) (by omega)
  have z3 : |H3| ≤ 1 := Ht_abs_le hcs (by omega) (by omega)
  have W : ∀ {H h' : ℝ}, |H| ≤ 1 → |h' - H| ≤ ε → Within (1 + ε) 1 H h' := fun q1 q2 => ⟨by simpa using q1, by rw [Real.norm_eq_abs]; linarith⟩
  have C : Within (grow u 1) 1 (Real.cos beta) cb := by
    have := Within.op h0 hu (Within.refl (x := Real.cos beta) (w := 1) (c := 1) (by rw [Real.norm_eq_abs]; exact Real.abs_cos_le_one _) le_rfl) (ha.lib _ _ hcb)
    rwa [one_mul] at this
  have S : Within (grow u 1) 1 (Real.sin beta) sb := by
    have := Within.op h0 hu (Within.refl (x := Real.sin beta) (w := 1) (c := 1) (by rw [Real.norm_eq_abs]; exact Real.abs_sin_le_one _) le_rfl) (ha.lib _ _ hsb)
    rwa [one_mul] at this
  have O : Within (grow u 1) 1 (1 : ℝ) 1 := Within.refl (by simp) (G 1)
  have X := op_within h0 hu ha (O.sub C) hx
  have X' := op_within h0 hu ha (O.add C) hx'
  have Y := ((bnm_upTo h0 hu ha hbM).within (G _)).mul X (G _)
  rw [grow_add hu] at Y
  have Y := op_within h0 hu ha Y hy
  have Y' := ((bnm_upTo h0 hu ha hbP).within (G _)).mul X' (G _)
  rw [grow_add hu] at Y'
  have Y' := op_within h0 hu ha Y' hy'
  have half : Within 1 (1 / 2) (1 / 2 : ℝ) (1 / 2) := Within.refl (by norm_num) le_rfl
  have T := (half.mul Y le_rfl).mul (W z1 e1) (by rw [one_mul]; exact G _)
  have T' := (half.mul Y' le_rfl).mul (W z2 e2) (by rw [one_mul]; exact G _)
  have T := Within.op h0 hu T (ha.op _ _ (by rw [show 1 / 2 * y * hp = y / 2 * hp by ring]; exact ht))
  have T' := Within.op h0 hu T' (ha.op _ _ (by rw [show 1 / 2 * y' * hmi = y' / 2 * hmi by ring]; exact ht'))
  have Z := ((anm_upTo h0 hu ha hc).within (G _)).mul S (G _)
  rw [grow_add hu] at Z
  have Z := op_within h0 hu ha Z hz
  have T'' := Within.op h0 hu (Z.mul (W z3 e3) (G _)) (ha.op _ _ ht'')
  have Q := Within.op h0 hu (T.sub T') (ha.op _ _ hq)
  have ce : 1 ≤ 1 + ε := by linarith
  have c1 : (1 : ℝ) ≤ grow u (2 + 1 + 1) * (1 + ε) * grow u 1 := one_le_mul_of_one_le_of_one_le (one_le_mul_of_one_le_of_one_le (G _) ce) (G _)
  have g45 : grow u (2 + 1 + 1) * (1 + ε) * grow u 1 ≤ 1 * grow u (2 + (1 + 1) + 1) * (1 + ε) * grow u 1 * grow u 1 := by
    have a1 : grow u (2 + 1 + 1) ≤ grow u (2 + (1 + 1) + 1) := grow_mono h0 hu (by omega)
    have a2 : grow u (2 + 1 + 1) * (1 + ε) * grow u 1 ≤ grow u (2 + (1 + 1) + 1) * (1 + ε) * grow u 1 :=
      mul_le_mul_of_nonneg_right (mul_le_mul_of_nonneg_right a1 (by linarith)) (by linarith [G 1])
    have a3 : (1 : ℝ) ≤ grow u (2 + (1 + 1) + 1) * (1 + ε) * grow u 1 := c1.trans a2
    have a4 := G 1
    rw [one_mul]
    nlinarith
  have Q' := Within.op h0 hu (Q.sub (T''.mono c1 g45 le_rfl)) (ha.op _ _ hq')
  have cQ : (1 : ℝ) ≤ 1 * grow u (2 + (1 + 1) + 1) * (1 + ε) * grow u 1 * grow u 1 * grow u 1 := one_le_mul_of_one_le_of_one_le (c1.trans g45) (G _)
  have V := Within.op h0 hu (Q'.mul (((bnm_upTo h0 hu ha hb).inv (G _)).within (G _)) cQ) (ha.op _ _ (by rw [← div_eq_mul_inv]; exact hv))
  have V2 := V.2
  have hgr : 1 * grow u (2 + (1 + 1) + 1) * (1 + ε) * grow u 1 * grow u 1 * grow u 1 * grow u 2 * grow u 1 = (1 + ε) * grow u 11 := by
    have : grow u 11 = grow u (2 + (1 + 1) + 1) * grow u 1 * grow u 1 * grow u 1 * grow u 2 * grow u 1 := by
      rw [grow_add hu, grow_add hu, grow_add hu, grow_add hu, grow_add hu]
    rw [this]; ring
  rw [hgr, Real.norm_eq_abs] at V2
  have hex : (1 / 2 * (bnm (n + 1) (-m - 1) * (1 - Real.cos beta)) * H1 - 1 / 2 * (bnm (n + 1) (m - 1) * (1 + Real.cos beta)) * H2 - anm n m * Real.sin beta * H3) * (bnm (n + 1) 0)⁻¹ =
      Ht n (Real.cos (beta / 2)) (Real.sin (beta / 2)) 1 m := by
    rw [← ex, div_eq_mul_inv]; ring
  have hb' : 0 < |bnm (n + 1) 0| := abs_pos.2 bn
  have hw : (1 / 2 * (|bnm (n + 1) (-m - 1)| * (1 + 1)) * 1 + 1 / 2 * (|bnm (n + 1) (m - 1)| * (1 + 1)) * 1 + |anm n m| * 1 * 1) * |(bnm (n + 1) 0)⁻¹| ≤ 5 := by
    rw [abs_inv, ← div_eq_mul_inv, div_le_iff₀ hb']
    linarith
  have hc1 : 0 ≤ (1 + ε) * grow u 11 - 1 := by
    have := one_le_mul_of_one_le_of_one_le ce (G 11)
    linarith
  rw [← hex]
  refine V2.trans ((mul_le_mul_of_nonneg_left hw hc1).trans_eq ?_)
  rw [grow]; ring

end Newt
