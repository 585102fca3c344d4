import Verif.Proofs.ForceRounding
import Verif.Proofs.Force

/-!
# Rounding errors of `multipole_force`: the factors and the sums
-/

namespace Newt

open Spec Flt

variable {a : Arith} {u : ℝ} {e : ℕ → ℝ}

/-! ## Operations, with any growth factors -/

theorem grow_pow (h1 : u < 1) (k : ℕ) : grow u k = grow u 1 ^ k := by
  induction k with
  | zero => rw [grow_zero, pow_zero]
  | succ k ih => rw [← grow_add h1, ih, pow_succ]

theorem cscaleC (h0 : 0 ≤ u) (h1 : u < 1) (ha : Accurate a u e) {c c' ws w s0 s : ℝ} {z0 z v : ℂ} (hc : 1 ≤ c) (hs : Within c ws s0 s)
    (hz : Within c' w z0 z) (h : CScale a s z v) : Within (c * c' * grow u 1) (ws * w) (s0 * z0) v :=
  Within.op h0 h1 (hs.ofReal.mul hz hc) (cop_err h0 ha h)

theorem cmulC (h0 : 0 ≤ u) (h1 : u < 1) (ha : Accurate a u e) {c c' ws w : ℝ} {s0 s z0 z v : ℂ} (hc : 1 ≤ c) (hs : Within c ws s0 s)
    (hz : Within c' w z0 z) (h : CMul a s z v) : Within (c * c' * grow u 4) (ws * w) (s0 * z0) v :=
  (hs.mul hz hc).round (relErr_nonneg h0 h1 4) (cmul_err h0 h1 ha h)

theorem cdivC (h0 : 0 ≤ u) (h1 : u < 1) (ha : Accurate a u e) {c w d : ℝ} (hc : 1 ≤ c) (hd : 0 < d) {z0 z v : ℂ} (hz : Within c w z0 z)
    (h : CDiv a z d v) : Within (c * grow u 2) (w / d) (z0 / d) v := by
  have hi : Within 1 d⁻¹ d⁻¹ d⁻¹ := Within.refl (by rw [Real.norm_eq_abs, abs_of_pos (by positivity)]) le_rfl
  have e2 : ((d⁻¹ : ℝ) : ℂ) * z0 = z0 / d := by push_cast; rw [div_eq_inv_mul]
  rcases h with h | ⟨s, hs, h⟩
  · have e1 : z / (d : ℂ) = ((d⁻¹ : ℝ) : ℂ) * z := by push_cast; rw [div_eq_inv_mul]
    rw [e1] at h
    have := cscaleC h0 h1 ha le_rfl hi hz (v := v) h
    rw [e2, ← div_eq_inv_mul, one_mul] at this
    have g1 := grow_one_le h0 h1 1
    exact this.mono (by nlinarith) (mul_le_mul_of_nonneg_left (grow_mono h0 h1 (by omega)) (by linarith)) le_rfl
  · rw [one_div] at hs
    have g1 := Within.op h0 h1 hi (ha.op _ _ hs)
    rw [one_mul] at g1
    have := cscaleC h0 h1 ha (grow_one_le h0 h1 1) g1 hz h
    rw [e2, ← div_eq_inv_mul, mul_comm (grow u 1) c, mul_assoc, grow_add h1] at this
    exact this

/-! ## Filling in the negative orders -/

theorem get_fill (L : ℕ) (f : ℕ → ℕ → ℂ) {l : ℕ} {m : ℤ} (hl : l ≤ L) (hm : m.natAbs ≤ l) :
    (momOfRows L f).fillNeg.get l m = if m = 0 then ((f l 0).re : ℂ) else if 0 ≤ m then f l m.natAbs else (starRingEnd ℂ) (f l m.natAbs) * (-1) ^ m.natAbs := by
  have hg : ∀ k : ℤ, k.natAbs ≤ l → (momOfRows L f).get l k = if 0 ≤ k then f l k.toNat else 0 := by
    intro k hk
    rw [momOfRows, Mom.get_ofFn _ hl (by omega)]
    by_cases h0 : 0 ≤ k
    · rw [if_pos ⟨h0, by omega⟩, if_pos h0]
    · rw [if_neg (fun e => h0 e.1), if_neg h0]
  rw [Mom.get_fillNeg _ hl (by omega)]
  simp only []
  rw [hg m hm, hg (-m) (by omega)]
  rcases lt_trichotomy m 0 with h | rfl | h
  · rw [if_neg (by omega), if_neg (by omega), if_pos (by omega), if_neg (by omega), if_neg (by omega), zero_add, show (-m).toNat = m.natAbs by omega]
  · simp only [neg_zero, le_refl, if_true, Int.natAbs_zero, pow_zero, mul_one, Int.toNat_zero]
    rw [Complex.add_conj]
    push_cast
    ring
  · rw [if_neg (by omega), if_pos (by omega), if_neg (by omega), if_neg (by omega), if_pos (by omega), map_zero, zero_mul, add_zero, show m.toNat = m.natAbs by omega]

theorem Within.conj {c w : ℝ} {x y : ℂ} (h : Within c w x y) : Within c w ((starRingEnd ℂ) x) ((starRingEnd ℂ) y) := by
  refine ⟨by rw [RCLike.norm_conj]; exact h.1, ?_⟩
  rw [← map_sub, RCLike.norm_conj]
  exact h.2

theorem fill_within {L : ℕ} {c : ℝ} {f g : ℕ → ℕ → ℂ} {w : ℕ → ℤ → ℝ} (hw : ∀ (l : ℕ) (m : ℤ), w l m = w l m.natAbs) {l : ℕ} (hl : l ≤ L)
    (h : ∀ m : ℕ, Within c (w l m) (f l m) (g l m)) {m : ℤ} (hm : m.natAbs ≤ l) :
    Within c (w l m) ((momOfRows L f).fillNeg.get l m) ((momOfRows L g).fillNeg.get l m) := by
  rw [get_fill L f hl hm, get_fill L g hl hm]
  have h1 := h m.natAbs
  rw [← hw] at h1
  by_cases h2 : m = 0
  · rw [if_pos h2, if_pos h2]
    subst h2
    exact (h 0).re.ofReal
  · rw [if_neg h2, if_neg h2]
    by_cases h3 : 0 ≤ m
    · rw [if_pos h3, if_pos h3]; exact h1
    · rw [if_neg h3, if_neg h3]
      rcases neg_one_pow_eq_or ℂ m.natAbs with h4 | h4
      · rw [h4, mul_one, mul_one]; exact h1.conj
      · rw [h4, mul_neg_one, mul_neg_one]; exact h1.conj.neg

theorem solidCoef_abs (l : ℕ) (m : ℤ) : solidCoef l m = solidCoef l m.natAbs := by
  rw [solidCoef, solidCoef, Int.natAbs_natCast]

theorem gradMaj_abs (r : ℝ) (l : ℕ) (m : ℤ) : gradMaj r l m = gradMaj r l m.natAbs := by
  rw [gradMaj, gradMaj, solidCoef_abs]

/-- The three arrays of the exact basis, for every displacement. -/
theorem force_basis_rows {L : ℕ} {x y z : ℝ} (h : 1 ≤ L ∨ ¬ (x = 0 ∧ y = 0 ∧ z = 0)) : Newt.force_basis L x y z = some
    ((momOfRows L fun l => (fbRows x y z l).1.bX).fillNeg, (momOfRows L fun l => (fbRows x y z l).1.bY).fillNeg, (momOfRows L fun l => (fbRows x y z l).1.bZ).fillNeg) := by
  rw [Newt.force_basis]
  by_cases h0 : x = 0 ∧ y = 0 ∧ z = 0
  · have hL : 1 ≤ L := h.resolve_right (fun e => e h0)
    rw [if_pos h0, if_neg (by omega), Option.some.injEq]
    rw [h0.1, h0.2.1, h0.2.2]
    have e : ∀ (f : ℕ → ℕ → ℂ) (g : ℕ → ℤ → ℂ), (∀ (l : ℕ) (m : ℤ), g l m = if 0 ≤ m ∧ m ≤ l then f l m.toNat else 0) →
        (Mom.ofFn L g).fillNeg = (momOfRows L f).fillNeg := by
      intro f g hfg
      congr 1
      rw [momOfRows]
      congr 1
      funext l m
      exact hfg l m
    rw [Prod.mk.injEq, Prod.mk.injEq]
    refine ⟨e _ _ ?_, e _ _ ?_, e _ _ ?_⟩
    · intro l m
      rw [(fb_origin l m.toNat).1]
      by_cases h1 : l = 1 ∧ m = 1
      · rw [h1.1, h1.2]; simp
      · rw [if_neg h1]
        split_ifs with a b
        · omega
        · rfl
        · rfl
    · intro l m
      rw [(fb_origin l m.toNat).2.1]
      by_cases h1 : l = 1 ∧ m = 1
      · rw [h1.1, h1.2]; simp
      · rw [if_neg h1]
        split_ifs with a b
        · omega
        · rfl
        · rfl
    · intro l m
      rw [(fb_origin l m.toNat).2.2]
      by_cases h1 : l = 1 ∧ m = 0
      · rw [h1.1, h1.2]; simp
      · rw [if_neg h1]
        split_ifs with a b
        · omega
        · rfl
        · rfl
  · rw [if_neg h0]

theorem origin_size (l m : ℕ) : ‖(fbRows 0 0 0 l).1.bX m‖ ≤ gradMaj 0 l m ∧ ‖(fbRows 0 0 0 l).1.bY m‖ ≤ gradMaj 0 l m ∧ ‖(fbRows 0 0 0 l).1.bZ m‖ ≤ gradMaj 0 l m := by
  obtain ⟨e1, e2, e3⟩ := fb_origin l m
  have hn := gradMaj_nonneg (r := 0) le_rfl l m
  have h1 : gradMaj 0 1 (1 : ℕ) = 5 / 4 := by rw [gradMaj, solidCoef_nat le_rfl]; norm_num
  have h0 : gradMaj 0 1 (0 : ℕ) = 5 / 2 := by rw [gradMaj, solidCoef_nat (by omega)]; norm_num
  rw [e1, e2, e3]
  refine ⟨?_, ?_, ?_⟩
  · split_ifs with h
    · obtain ⟨rfl, rfl⟩ := h; rw [h1]; norm_num
    · simpa using hn
  · split_ifs with h
    · obtain ⟨rfl, rfl⟩ := h; rw [h1]; norm_num
    · simpa using hn
  · split_ifs with h
    · obtain ⟨rfl, rfl⟩ := h; rw [h0]; norm_num
    · simpa using hn

/-- The arrays of `force_basis`. -/
theorem basis_within (h0 : 0 ≤ u) (h1 : u < 1) (ha : Accurate a u e) {L : ℕ} {x y z : ℝ} {b : Mom L × Mom L × Mom L} (h : Flt.force_basis a L x y z b) :
    ∃ b0, Newt.force_basis L x y z = some b0 ∧ ∀ (l : ℕ) (m : ℤ), l ≤ L → m.natAbs ≤ l →
      Within (grow u (7 * l)) (gradMaj (Real.sqrt (x ^ 2 + y ^ 2 + z ^ 2)) l m) (b0.1.get l m) (b.1.get l m) ∧
      Within (grow u (7 * l)) (gradMaj (Real.sqrt (x ^ 2 + y ^ 2 + z ^ 2)) l m) (b0.2.1.get l m) (b.2.1.get l m) ∧
      Within (grow u (7 * l)) (gradMaj (Real.sqrt (x ^ 2 + y ^ 2 + z ^ 2)) l m) (b0.2.2.get l m) (b.2.2.get l m) := by
  rcases h with ⟨rfl, rfl, rfl, h⟩ | ⟨hne, rows, hrows, rfl⟩
  · have hL : 1 ≤ L := by
      by_contra hc
      rw [Newt.force_basis, if_pos ⟨rfl, rfl, rfl⟩, if_pos (by omega)] at h
      cases h
    have hb := force_basis_rows (L := L) (x := 0) (y := 0) (z := 0) (Or.inl hL)
    rw [hb] at h
    obtain rfl := Option.some.inj h
    refine ⟨_, hb, fun l m hl hm => ?_⟩
    have e0 : Real.sqrt (0 ^ 2 + 0 ^ 2 + 0 ^ 2) = 0 := by norm_num
    rw [e0]
    have hg := grow_one_le h0 h1 (7 * l)
    exact ⟨fill_within (gradMaj_abs 0) hl (fun k => Within.refl (origin_size l k).1 hg) hm, fill_within (gradMaj_abs 0) hl (fun k => Within.refl (origin_size l k).2.1 hg) hm,
      fill_within (gradMaj_abs 0) hl (fun k => Within.refl (origin_size l k).2.2 hg) hm⟩
  · refine ⟨_, force_basis_rows (Or.inr hne), fun l m hl hm => ?_⟩
    have := rows_within h0 h1 ha rfl hrows l hl
    exact ⟨fill_within (gradMaj_abs _) hl (fun k => (this k).2.1) hm, fill_within (gradMaj_abs _) hl (fun k => (this k).2.2.1) hm,
      fill_within (gradMaj_abs _) hl (fun k => (this k).2.2.2) hm⟩

/-! ## The factorials -/

theorem gammaln_log (x : ℝ) (n : ℤ) (hn : 0 ≤ n) (hx : x = n + 1) : gammaln x = Real.log (n.toNat.factorial) := by
  rw [← Real.log_exp (gammaln x), exp_gammaln x n hn hx]
  congr 1

theorem log_pair_le {b c : ℤ} (hb : 0 ≤ b) (hc : 0 ≤ c) {L : ℕ} (h : b + c ≤ 2 * L) :
    Real.log (b.toNat.factorial) + Real.log (c.toNat.factorial) ≤ Real.log ((2 * L).factorial) := by
  have h1 : (0 : ℝ) < (b.toNat.factorial : ℝ) := by exact_mod_cast Nat.factorial_pos _
  have h2 : (0 : ℝ) < (c.toNat.factorial : ℝ) := by exact_mod_cast Nat.factorial_pos _
  rw [← Real.log_mul h1.ne' h2.ne']
  refine Real.log_le_log (by positivity) ?_
  have h3 : b.toNat.factorial * c.toNat.factorial ≤ (2 * L).factorial :=
    (Nat.le_of_dvd (Nat.factorial_pos _) (Nat.factorial_mul_factorial_dvd_factorial_add _ _)).trans (Nat.factorial_le (by omega))
  exact_mod_cast h3

theorem log_fact_nonneg (n : ℕ) : 0 ≤ Real.log (n.factorial) := Real.log_nonneg (by exact_mod_cast Nat.factorial_pos n)

/-- The growth factor of the logarithms. -/
noncomputable def gamGrow (u : ℝ) (L : ℕ) : ℝ := Real.exp (relErr u 3 * (2 * Real.log ((2 * L).factorial)))

theorem gamGrow_one_le (h0 : 0 ≤ u) (h1 : u < 1) (L : ℕ) : 1 ≤ gamGrow u L := by
  rw [gamGrow]
  refine Real.one_le_exp ?_
  have := relErr_nonneg h0 h1 3
  have := log_fact_nonneg (2 * L)
  positivity

theorem gam_within (h0 : 0 ≤ u) (h1 : u < 1) (ha : Accurate a u e) {L lo l : ℕ} {mo m : ℤ} (hlo : lo ≤ L) (hl : l ≤ L) (hmo : mo.natAbs ≤ lo) (hm : m.natAbs ≤ l)
    {E : ℝ} (h : GamFac a lo mo l m E) :
    Within (gamGrow u L * grow u 2) (Real.sqrt (((l + m).toNat.factorial * (l - m).toNat.factorial) / ((lo + mo).toNat.factorial * (lo - mo).toNat.factorial)))
      (Real.sqrt (Real.exp (gammaln (l + m + 1) + gammaln (l - m + 1) - (gammaln (lo + mo + 1) + gammaln (lo - mo + 1))))) E := by
  obtain ⟨g1, g2, g3, g4, p, k, s, v, a1, a2, a3, a4, a5, a6, a7, a8, a9⟩ := h
  have lib : ∀ x y : ℝ, 0 ≤ x → a.lib x y → Within (grow u 1) x x y := fun x y hx hxy => by
    have := Within.op h0 h1 (Within.refl (x := x) (w := x) (c := 1) (by rw [Real.norm_eq_abs, abs_of_nonneg hx]) le_rfl) (ha.lib _ _ hxy)
    rwa [one_mul] at this
  have i1 := gammaln_log (lo + mo + 1) (lo + mo) (by omega) (by push_cast; ring)
  have i2 := gammaln_log (lo - mo + 1) (lo - mo) (by omega) (by push_cast; ring)
  have i3 := gammaln_log (l + m + 1) (l + m) (by omega) (by push_cast; ring)
  have i4 := gammaln_log (l - m + 1) (l - m) (by omega) (by push_cast; ring)
  rw [i1] at a1; rw [i2] at a2; rw [i3] at a4; rw [i4] at a5
  rw [i1, i2, i3, i4]
  have w1 := op_within h0 h1 ha ((lib _ _ (log_fact_nonneg _) a1).add (lib _ _ (log_fact_nonneg _) a2)) a3
  have w2 := op_within h0 h1 ha ((lib _ _ (log_fact_nonneg _) a4).add (lib _ _ (log_fact_nonneg _) a5)) a6
  have w3 := op_within h0 h1 ha (w2.sub w1) a7
  have b1 := log_pair_le (b := lo + mo) (c := lo - mo) (L := L) (by omega) (by omega) (by omega)
  have b2 := log_pair_le (b := l + m) (c := l - m) (L := L) (by omega) (by omega) (by omega)
  have e0 : Real.exp (Real.log ((l + m).toNat.factorial) + Real.log ((l - m).toNat.factorial) - (Real.log ((lo + mo).toNat.factorial) + Real.log ((lo - mo).toNat.factorial))) =
      ((l + m).toNat.factorial * (l - m).toNat.factorial) / ((lo + mo).toNat.factorial * (lo - mo).toNat.factorial) := by
    have pos : ∀ n : ℕ, (0 : ℝ) < (n.factorial : ℝ) := fun n => by exact_mod_cast Nat.factorial_pos _
    rw [Real.exp_sub, Real.exp_add, Real.exp_add, Real.exp_log (pos _), Real.exp_log (pos _), Real.exp_log (pos _), Real.exp_log (pos _)]
  rw [← e0]
  have w4 := w3.2
  generalize Real.log ((l + m).toNat.factorial) + Real.log ((l - m).toNat.factorial) = K at *
  generalize Real.log ((lo + mo).toNat.factorial) + Real.log ((lo - mo).toNat.factorial) = H at *
  have hs : |s - (K - H)| ≤ relErr u 3 * (2 * Real.log ((2 * L).factorial)) := by
    have e1 : grow u (1 + 1 + 1) - 1 = relErr u 3 := by rw [grow]; ring
    rw [e1, Real.norm_eq_abs] at w4
    exact w4.trans (mul_le_mul_of_nonneg_left (by linarith) (relErr_nonneg h0 h1 3))
  set c := gamGrow u L with hc
  have hc1 : 1 ≤ c := gamGrow_one_le h0 h1 L
  have hc0 : 0 < c := by linarith
  have n1 : NearC u 0 c (Real.exp (K - H)) (Real.exp s) := by
    refine ⟨Real.exp (s - (K - H)), by rw [← Real.exp_add]; congr 1; ring, ?_, ?_⟩
    · rw [pow_zero, one_div, hc, gamGrow, ← Real.exp_neg]
      exact Real.exp_le_exp.2 (abs_le.1 hs).1
    · rw [pow_zero, div_one, hc, gamGrow]
      exact Real.exp_le_exp.2 (abs_le.1 hs).2
  have n2 := nearC_near h1 hc0 n1 (near_of_rd h0 h1 (ha.lib _ _ a8))
  rw [zero_add] at n2
  have n3 : NearC u 1 c (Real.sqrt (Real.exp (K - H))) (Real.sqrt v) := by
    obtain ⟨θ, rfl, ta, tb⟩ := n2
    rw [pow_one] at ta tb
    have hu : 0 < 1 - u := by linarith
    have ht0 : 0 ≤ θ := (by positivity : 0 ≤ (1 - u) / c).trans ta
    refine ⟨Real.sqrt θ, Real.sqrt_mul ht0 _, ?_, ?_⟩
    · rw [pow_one]
      refine Real.le_sqrt_of_sq_le (le_trans ?_ ta)
      have h3 : (1 - u) / c ≤ 1 := by rw [div_le_one hc0]; linarith
      have h4 : 0 ≤ (1 - u) / c := by positivity
      nlinarith
    · rw [pow_one]
      refine Real.sqrt_le_iff.2 ⟨by positivity, tb.trans ?_⟩
      have h3 : 1 ≤ c / (1 - u) := by rw [one_le_div hu]; linarith
      nlinarith
  have n4 := nearC_err h1 hc0 (nearC_near h1 hc0 n3 (near_of_rd h0 h1 (ha.op _ _ a9)))
  refine ⟨by rw [Real.norm_eq_abs, abs_of_nonneg (Real.sqrt_nonneg _)], ?_⟩
  rw [Real.norm_eq_abs]
  rw [abs_of_nonneg (Real.sqrt_nonneg _)] at n4
  refine n4.trans_eq ?_
  rw [grow, relErr, show 1 + 1 = 2 from rfl, div_eq_mul_inv]
  ring

/-! ## One term -/

theorem sqrt_within (h0 : 0 ≤ u) (h1 : u < 1) (ha : Accurate a u e) {x t s : ℝ} (hx : 0 ≤ x) (ht : a.op x t) (hs : a.op (Real.sqrt t) s) :
    Within (grow u 2) (Real.sqrt x) (Real.sqrt x) s := by
  have n1 := near_sqrt h0 h1 (k := 1) hx (near_mono h0 h1 (by omega : 1 ≤ 2 * 1) (near_of_rd h0 h1 (ha.op _ _ ht)))
  have n2 := near_err h1 (near_rd h0 h1 n1 (ha.op _ _ hs))
  refine ⟨by rw [Real.norm_eq_abs, abs_of_nonneg (Real.sqrt_nonneg _)], ?_⟩
  rw [abs_of_nonneg (Real.sqrt_nonneg _)] at n2
  rw [Real.norm_eq_abs]
  refine n2.trans_eq ?_
  rw [grow]; ring

theorem front_sqrt (l lo : ℕ) : 1 / (2 * (l : ℝ) + 1) * Real.sqrt ((2 * l + 1) / (2 * lo + 1)) = 1 / Real.sqrt ((2 * l + 1) * (2 * lo + 1)) := by
  have h1 : (0 : ℝ) < 2 * l + 1 := by positivity
  have h2 : (0 : ℝ) < 2 * lo + 1 := by positivity
  have s1 := Real.sqrt_pos.2 h1
  have s2 := Real.sqrt_pos.2 h2
  rw [Real.sqrt_div h1.le, Real.sqrt_mul h1.le]
  have := Real.mul_self_sqrt h1.le
  nth_rewrite 1 [← this]
  field_simp

/-- The size of one term of the force, from the sizes `wq` and `wQ` of the moments. -/
noncomputable def termSize (G : ℝ) (wq wQ : ℕ → ℤ → ℝ) (r : ℝ) (i : ℕ × ℤ × ℕ × ℤ) : ℝ :=
  4 * Real.pi * |G| * (wq i.1 i.2.1 * wQ i.2.2.1 i.2.2.2 / Real.sqrt ((2 * i.2.2.1 + 1) * (2 * i.1 + 1)) *
      Real.sqrt (((i.2.2.1 + i.2.2.2).toNat.factorial * (i.2.2.1 - i.2.2.2).toNat.factorial) / ((i.1 + i.2.1).toNat.factorial * (i.1 - i.2.1).toNat.factorial)) *
      gradMaj r (i.2.2.1 - i.1) (i.2.2.2 - i.2.1))

theorem term_within (h0 : 0 ≤ u) (h1 : u < 1) (ha : Accurate a u e) {L : ℕ} {q q0 Q Q0 b b0 : Mom L} {wq wQ : ℕ → ℤ → ℝ} {cq cQ : ℝ} (hcq : 1 ≤ cq) (hcQ : 1 ≤ cQ)
    (hq : ∀ (l : ℕ) (m : ℤ), l ≤ L → m.natAbs ≤ l → Within cq (wq l m) (q0.get l m) (q.get l m))
    (hQ : ∀ (l : ℕ) (m : ℤ), l ≤ L → m.natAbs ≤ l → Within cQ (wQ l m) (Q0.get l m) (Q.get l m)) {r : ℝ}
    (hb : ∀ (l : ℕ) (m : ℤ), l ≤ L → m.natAbs ≤ l → Within (grow u (7 * l)) (gradMaj r l m) (b0.get l m) (b.get l m))
    {G g p fac : ℝ} (hg : a.op G g) (hp : a.op (4 * Real.pi) p) (hfac : a.op (p * g) fac) {lo l : ℕ} {mo m : ℤ} (hlo : lo ≤ L) (hl : l ≤ L) (hll : lo ≤ l)
    (hmo : mo.natAbs ≤ lo) (hm : m.natAbs ≤ l) (hmm : (m - mo).natAbs ≤ l - lo) {f t : ℂ}
    (hf : Fac2 a q Q fac (lo, mo, l, m) f) (ht : CMul a f (b.get (l - lo) (m - mo)) t) :
    Within (gamGrow u L * grow u (20 + 7 * L) * (cq * cQ)) (termSize G wq wQ r (lo, mo, l, m)) (forceFac q0 Q0 G lo mo l m * b0.get (l - lo) (m - mo)) t := by
  obtain ⟨mofac, v, lmofac, w, t', s, E, a1, a2, a3, a4, a5, a6, a7, a8⟩ := hf
  dsimp only at a1 a2 a3 a4 a5 a6 a7 a8
  have hpi := Real.pi_pos
  have g1 := grow_one_le h0 h1 1
  have rnd : ∀ x y : ℝ, a.op x y → Within (grow u 1) |x| x y := fun x y hxy => by
    have := Within.op h0 h1 (Within.refl (x := x) (w := |x|) (c := 1) le_rfl le_rfl) (ha.op _ _ hxy)
    rwa [one_mul] at this
  have W1 := Within.op h0 h1 ((rnd _ _ hp).mul (rnd _ _ hg) g1) (ha.op _ _ hfac)
  have W2 := cscaleC h0 h1 ha (one_le_mul_of_one_le_of_one_le (one_le_mul_of_one_le_of_one_le g1 g1) g1) W1 (hq lo mo hlo hmo) a1
  have k2 : 1 ≤ grow u 1 * grow u 1 * grow u 1 * cq * grow u 1 :=
    one_le_mul_of_one_le_of_one_le (one_le_mul_of_one_le_of_one_le (one_le_mul_of_one_le_of_one_le (one_le_mul_of_one_le_of_one_le g1 g1) g1) hcq) g1
  have hd : (0 : ℝ) < 2 * (l : ℝ) + 1 := by positivity
  have W3 := cdivC h0 h1 ha k2 hd W2 a2
  have W4 := sqrt_within h0 h1 ha (x := (2 * (l : ℝ) + 1) / (2 * lo + 1)) (by positivity) a3 a4
  have W5 := cscaleC h0 h1 ha (grow_one_le h0 h1 2) W4 W3 a5
  have W6 := cmulC h0 h1 ha hcQ (hQ l m hl hm) W5 a6
  have W7 := gam_within h0 h1 ha hlo hl hmo hm a7
  have hgg := gamGrow_one_le h0 h1 L
  have W8 := cscaleC h0 h1 ha (one_le_mul_of_one_le_of_one_le hgg (grow_one_le h0 h1 2)) W7 W6 a8
  have W9 := (hb (l - lo) (m - mo) (by omega) hmm).mono (grow_one_le h0 h1 _) (grow_mono h0 h1 (by omega : 7 * (l - lo) ≤ 7 * L)) le_rfl
  have hk : ∀ k, 1 ≤ grow u k := grow_one_le h0 h1
  have W := cmulC h0 h1 ha ?_ W8 W9 ht
  · have ec : gamGrow u L * grow u 2 * (cQ * (grow u 2 * (grow u 1 * grow u 1 * grow u 1 * cq * grow u 1 * grow u 2) * grow u 1) * grow u 4) * grow u 1 *
        grow u (7 * L) * grow u 4 = gamGrow u L * grow u (20 + 7 * L) * (cq * cQ) := by
      rw [grow_pow h1 (20 + 7 * L), grow_pow h1 (7 * L), grow_pow h1 4, grow_pow h1 2]
      ring
    rw [ec] at W
    have W' := W.mono (w' := termSize G wq wQ r (lo, mo, l, m))
      (one_le_mul_of_one_le_of_one_le (one_le_mul_of_one_le_of_one_le hgg (hk _)) (one_le_mul_of_one_le_of_one_le hcq hcQ)) le_rfl (le_of_eq ?_)
    · convert W' using 1
      rw [forceFac]
      push_cast
      congr 1
      ring
    · rw [termSize]
      dsimp only
      have := front_sqrt l lo
      rw [abs_of_pos (by positivity : (0 : ℝ) < 4 * Real.pi)]
      rw [div_eq_mul_one_div (wq lo mo * wQ l m), ← this]
      ring
  · refine one_le_mul_of_one_le_of_one_le (one_le_mul_of_one_le_of_one_le (one_le_mul_of_one_le_of_one_le hgg (hk 2)) ?_) g1
    refine one_le_mul_of_one_le_of_one_le (one_le_mul_of_one_le_of_one_le hcQ ?_) (hk 4)
    exact one_le_mul_of_one_le_of_one_le (one_le_mul_of_one_le_of_one_le (hk 2) (one_le_mul_of_one_le_of_one_le k2 (hk 2))) g1

/-! ## The sum of the terms -/

theorem zrange_sum {M : Type} [AddCommMonoid M] (b c : ℤ) (f : ℤ → M) : ((zrange b c).map f).sum = ∑ k ∈ Finset.Icc b c, f k := by
  rw [zrange, List.map_map]
  have e1 : ((List.range (c + 1 - b).toNat).map (f ∘ fun i : ℕ => b + i)).sum = ∑ i ∈ Finset.range (c + 1 - b).toNat, f (b + i) := rfl
  rw [e1]
  refine Finset.sum_bij (fun i _ => b + (i : ℤ)) ?_ ?_ ?_ ?_
  · intro i hi
    rw [Finset.mem_range] at hi
    rw [Finset.mem_Icc]
    omega
  · intro i _ j _ h
    omega
  · intro k hk
    rw [Finset.mem_Icc] at hk
    exact ⟨(k - b).toNat, by rw [Finset.mem_range]; omega, by omega⟩
  · intro i _; rfl

theorem zrange_mem {b c k : ℤ} (h : k ∈ zrange b c) : b ≤ k ∧ k ≤ c := by
  rw [zrange, List.mem_map] at h
  obtain ⟨i, hi, rfl⟩ := h
  rw [List.mem_range] at hi
  omega

theorem zrange_length (b c : ℤ) : (zrange b c).length = (c + 1 - b).toNat := by simp [zrange]

theorem flatMap_sum {α β M : Type} [AddCommMonoid M] (l : List α) (g : α → List β) (f : β → M) : ((l.flatMap g).map f).sum = (l.map fun x => ((g x).map f).sum).sum := by
  induction l with
  | nil => rfl
  | cons x l ih => rw [List.flatMap_cons, List.map_append, List.sum_append, ih, List.map_cons, List.sum_cons]

theorem forceIdx_sum {M : Type} [AddCommMonoid M] (L : ℕ) (f : ℕ × ℤ × ℕ × ℤ → M) : ((forceIdx L).map f).sum =
    ∑ lo ∈ Finset.range (L + 1), ∑ mo ∈ Finset.Icc (-(lo : ℤ)) lo, ∑ l ∈ Finset.Icc (lo + 1) L, ∑ m ∈ Finset.Icc (mo - (l - lo : ℕ)) (mo + (l - lo : ℕ)), f (lo, mo, l, m) := by
  have e0 : ∀ (n : ℕ) (g : ℕ → M), ((List.range n).map g).sum = ∑ j ∈ Finset.range n, g j := fun _ _ => rfl
  rw [forceIdx, flatMap_sum (M := M), e0]
  refine Finset.sum_congr rfl fun lo hlo => ?_
  rw [Finset.mem_range] at hlo
  rw [flatMap_sum (M := M), zrange_sum]
  refine Finset.sum_congr rfl fun mo _ => ?_
  rw [flatMap_sum (M := M)]
  have e1 : ∀ g : ℕ → M, ((List.range (L - lo)).map g).sum = ∑ j ∈ Finset.range (L - lo), g j := fun _ => rfl
  rw [e1]
  refine Finset.sum_bij (fun j _ => lo + 1 + j) ?_ ?_ ?_ ?_
  · intro j hj
    rw [Finset.mem_range] at hj
    rw [Finset.mem_Icc]
    omega
  · intro i _ j _ h
    omega
  · intro l hl
    rw [Finset.mem_Icc] at hl
    exact ⟨l - (lo + 1), by rw [Finset.mem_range]; omega, by omega⟩
  · intro j _
    rw [List.map_map, show lo + 1 + j - lo = j + 1 by omega]
    exact zrange_sum _ _ fun m => f (lo, mo, lo + 1 + j, m)

theorem forceIdx_length (L : ℕ) : (forceIdx L).length = forceTerms L := by
  have h1 : (forceIdx L).length = ((forceIdx L).map fun _ => 1).sum := by simp
  have e0 : ∀ (n : ℕ) (g : ℕ → ℕ), ((List.range n).map g).sum = ∑ j ∈ Finset.range n, g j := fun _ _ => rfl
  rw [h1, forceIdx, flatMap_sum (M := ℕ), forceTerms, e0]
  refine Finset.sum_congr rfl fun lo _ => ?_
  rw [flatMap_sum (M := ℕ)]
  have e1 : ∀ mo : ℤ, ((((List.range (L - lo)).flatMap fun j : ℕ =>
    (zrange (mo - (j + 1 : ℕ)) (mo + (j + 1 : ℕ))).map fun m : ℤ => (lo, mo, lo + 1 + j, m)).map fun _ => 1).sum : ℕ) = ∑ j ∈ Finset.range (L - lo), (2 * j + 3) := by
    intro mo
    rw [flatMap_sum (M := ℕ), e0]
    refine Finset.sum_congr rfl fun j _ => ?_
    rw [List.map_map]
    simp only [Function.comp_def, List.map_const', List.sum_replicate, zrange_length, smul_eq_mul, mul_one]
    omega
  simp only [e1]
  rw [List.map_const', List.sum_replicate, zrange_length, smul_eq_mul]
  congr 1
  omega

theorem forceIdx_mem {L : ℕ} {i : ℕ × ℤ × ℕ × ℤ} (h : i ∈ forceIdx L) :
    i.1 ≤ L ∧ i.2.2.1 ≤ L ∧ i.1 ≤ i.2.2.1 ∧ i.2.1.natAbs ≤ i.1 ∧ i.2.2.2.natAbs ≤ i.2.2.1 ∧ (i.2.2.2 - i.2.1).natAbs ≤ i.2.2.1 - i.1 := by
  rw [forceIdx, List.mem_flatMap] at h
  obtain ⟨lo, hlo, h⟩ := h
  rw [List.mem_range] at hlo
  rw [List.mem_flatMap] at h
  obtain ⟨mo, hmo, h⟩ := h
  have := zrange_mem hmo
  rw [List.mem_flatMap] at h
  obtain ⟨j, hj, h⟩ := h
  rw [List.mem_range] at hj
  rw [List.mem_map] at h
  obtain ⟨m, hm, rfl⟩ := h
  have := zrange_mem hm
  dsimp only
  omega

theorem cadds_within (h0 : 0 ≤ u) (h1 : u < 1) (ha : Accurate a u e) {ι : Type} {w : ι → ℝ} {x : ι → ℂ} {ys : List ℂ} {s t : ℂ} (h : CAdds a ys s t) :
    ∀ {c w0 : ℝ} {x0 : ℂ} {is : List ι}, 1 ≤ c → Within c w0 x0 s → List.Forall₂ (fun i y => Within c (w i) (x i) y) is ys →
      Within (c * grow u is.length) (w0 + (is.map w).sum) (x0 + (is.map x).sum) t := by
  induction h with
  | nil s =>
    intro c w0 x0 is _ h hall
    cases hall
    rw [List.length_nil, grow_zero, mul_one]
    simpa using h
  | @cons y s s' t ys hop _ ih =>
    intro c w0 x0 is hc h hall
    cases hall with
    | @cons i _ is _ hy hall =>
    have g := Within.op h0 h1 (h.add hy) (cop_err h0 ha hop)
    have hg := grow_one_le h0 h1 1
    have hcg : c ≤ c * grow u 1 := le_mul_of_one_le_right (by linarith) hg
    have := ih (c := c * grow u 1) (is := is) (by linarith) g (hall.imp fun i y hi => hi.mono hc hcg le_rfl)
    rw [mul_assoc, grow_add h1] at this
    rw [List.map_cons, List.map_cons, List.sum_cons, List.sum_cons, List.length_cons, ← add_assoc, ← add_assoc, add_comm is.length 1]
    exact this

/-- The sizes of the moments give the size of the force. -/
noncomputable def forceSize (G : ℝ) (L : ℕ) (wq wQ : ℕ → ℤ → ℝ) (r : ℝ) : ℝ := ((forceIdx L).map (termSize G wq wQ r)).sum

theorem comp_within (h0 : 0 ≤ u) (h1 : u < 1) (ha : Accurate a u e) {L : ℕ} {q q0 Q Q0 b b0 : Mom L} {wq wQ : ℕ → ℤ → ℝ} {cq cQ : ℝ} (hcq : 1 ≤ cq) (hcQ : 1 ≤ cQ)
    (hq : ∀ (l : ℕ) (m : ℤ), l ≤ L → m.natAbs ≤ l → Within cq (wq l m) (q0.get l m) (q.get l m))
    (hQ : ∀ (l : ℕ) (m : ℤ), l ≤ L → m.natAbs ≤ l → Within cQ (wQ l m) (Q0.get l m) (Q.get l m)) {r : ℝ}
    (hb : ∀ (l : ℕ) (m : ℤ), l ≤ L → m.natAbs ≤ l → Within (grow u (7 * l)) (gradMaj r l m) (b0.get l m) (b.get l m))
    {G g p fac : ℝ} (hg : a.op G g) (hp : a.op (4 * Real.pi) p) (hfac : a.op (p * g) fac) {F : ℂ} (h : ForceComp a q Q b fac F) :
    Within (gamGrow u L * grow u (20 + 7 * L + forceTerms L) * (cq * cQ)) (forceSize G L wq wQ r) (forceComp q0 Q0 b0 G) F := by
  obtain ⟨ts, hts, hadd⟩ := h
  have hgg := gamGrow_one_le h0 h1 L
  have hc : 1 ≤ gamGrow u L * grow u (20 + 7 * L) * (cq * cQ) :=
    one_le_mul_of_one_le_of_one_le (one_le_mul_of_one_le_of_one_le hgg (grow_one_le h0 h1 _)) (one_le_mul_of_one_le_of_one_le hcq hcQ)
  have hall : List.Forall₂ (fun (i : ℕ × ℤ × ℕ × ℤ) t => Within (gamGrow u L * grow u (20 + 7 * L) * (cq * cQ)) (termSize G wq wQ r i)
      (forceFac q0 Q0 G i.1 i.2.1 i.2.2.1 i.2.2.2 * b0.get (i.2.2.1 - i.1) (i.2.2.2 - i.2.1)) t) (forceIdx L) ts := by
    refine forall₂_imp_mem hts ?_
    rintro ⟨lo, mo, l, m⟩ hi t ⟨f, hf, ht⟩
    obtain ⟨k1, k2, k3, k4, k5, k6⟩ := forceIdx_mem hi
    exact term_within h0 h1 ha hcq hcQ hq hQ hb hg hp hfac k1 k2 k3 k4 k5 k6 hf ht
  have := cadds_within h0 h1 ha hadd (w0 := 0) (x0 := 0) hc (Within.refl (by simp) hc) hall
  rw [zero_add, zero_add, forceIdx_length, forceIdx_sum L fun i => forceFac q0 Q0 G i.1 i.2.1 i.2.2.1 i.2.2.2 * b0.get (i.2.2.1 - i.1) (i.2.2.2 - i.2.1)] at this
  have ec : gamGrow u L * grow u (20 + 7 * L) * (cq * cQ) * grow u (forceTerms L) = gamGrow u L * grow u (20 + 7 * L + forceTerms L) * (cq * cQ) := by
    rw [← grow_add h1 (20 + 7 * L)]; ring
  rw [ec] at this
  exact this

end Newt
