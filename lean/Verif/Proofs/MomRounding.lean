import Verif.Proofs.Nearest
import Verif.Proofs.HarmLip
import Verif.Proofs.Pg2Multi2

/-!
# Rounding errors of the multipole moments
-/

namespace Newt

open Spec Flt

variable {a : Arith} {u : ℝ} {e : ℕ → ℝ}

theorem rad_near (h0 : 0 ≤ u) (h1 : u < 1) (ha : Accurate a u e) {p : Pt} {r : ℝ} (h : Rad a p r) : Near u 3 (originDist p) r := by
  obtain ⟨s, hs, t, t', ht, ht', hr⟩ := h
  have n : ∀ i, Near u 1 (p.pos i ^ 2) (s i) := fun i => near_of_rd h0 h1 (ha.op _ _ (hs i))
  have n1 : Near u 2 (p.pos 0 ^ 2 + p.pos 1 ^ 2) t := near_rd h0 h1 (near_add h0 h1 (by positivity) (by positivity) (n 0) (n 1)) (ha.op _ _ ht)
  have n2 : Near u 3 (p.pos 0 ^ 2 + p.pos 1 ^ 2 + p.pos 2 ^ 2) t' :=
    near_rd h0 h1 (near_add h0 h1 (by positivity) (by positivity) n1 (near_mono h0 h1 (by omega) (n 2))) (ha.op _ _ ht')
  have n3 : Near u (2 * 2) (p.pos 0 ^ 2 + p.pos 1 ^ 2 + p.pos 2 ^ 2) t' := near_mono h0 h1 (by omega) n2
  exact near_rd h0 h1 (near_sqrt h0 h1 (by positivity) n3) (ha.op _ _ hr)

theorem near_zero_iff (h1 : u < 1) {k : ℕ} {x y : ℝ} (h : Near u k x y) : y = 0 ↔ x = 0 := by
  obtain ⟨θ, rfl, b, -⟩ := h
  have : 0 < θ := lt_of_lt_of_le (pow_pos (by linarith) k) b
  simp [this.ne']

theorem originDist_eq (p : Pt) : originDist p = modulus p.pos := rfl

theorem rad_zero_iff (h0 : 0 ≤ u) (h1 : u < 1) (ha : Accurate a u e) {p : Pt} {r : ℝ} (h : Rad a p r) : r = 0 ↔ p.pos = 0 := by
  rw [near_zero_iff h1 (rad_near h0 h1 ha h), originDist_eq, modulus_eq_zero]

theorem cos_ratio (p : Pt) (hp : p.pos ≠ 0) : |p.pos 2 / originDist p| ≤ 1 ∧ Real.sqrt (1 - (p.pos 2 / originDist p) ^ 2) = cylRad p / originDist p := by
  have hr : 0 < originDist p := modulus_pos hp
  have h2 : originDist p ^ 2 = p.pos 0 ^ 2 + p.pos 1 ^ 2 + p.pos 2 ^ 2 := Real.sq_sqrt (by positivity)
  constructor
  · rw [abs_div, abs_of_pos hr, div_le_one hr]
    exact abs_le_of_sq_le_sq (by nlinarith [sq_nonneg (p.pos 0), sq_nonneg (p.pos 1)]) hr.le
  · have e1 : 1 - (p.pos 2 / originDist p) ^ 2 = (p.pos 0 ^ 2 + p.pos 1 ^ 2) / originDist p ^ 2 := by
      field_simp
      linarith
    rw [e1, Real.sqrt_div (by positivity), Real.sqrt_sq hr.le]
    rfl

/-- The computed polar angle. -/
theorem theta_err (h0 : 0 ≤ u) (h1 : u < 1) (ha : Accurate a u e) {p : Pt} (hp : p.pos ≠ 0) {r theta d : ℝ} (hd0 : 0 ≤ d) (hr : Rad a p r) (h : Theta a p r theta)
    (hd : Real.sqrt (relErr u 4 / 2) ≤ d ∨ relErr u 4 * originDist p ≤ d * cylRad p) : |theta - thetaOf p| ≤ Real.pi * (d + u) := by
  obtain ⟨c, hc, hc1, ht⟩ := h
  have hpi := Real.pi_pos
  have hE := relErr_nonneg h0 h1 4
  have n : Near u 4 (p.pos 2 / originDist p) c := near_rd h0 h1 (near_div (j := 0) h1 (near_refl h0 h1 0 _) (rad_near h0 h1 ha hr)) (ha.op _ _ hc)
  obtain ⟨g1, g2⟩ := cos_ratio p hp
  have hrp : 0 < originDist p := modulus_pos hp
  have h2 : |c - p.pos 2 / originDist p| ≤ relErr u 4 := (near_err h1 n).trans (mul_le_of_le_one_right hE g1)
  have h3 : |theta - Real.arccos c| ≤ u * Real.pi := by
    refine (ha.lib _ _ ht).trans ?_
    rw [abs_of_nonneg (Real.arccos_nonneg c)]
    gcongr
    exact Real.arccos_le_pi c
  have h4 : |Real.arccos c - thetaOf p| ≤ Real.pi * d := by
    obtain ⟨l1, l2⟩ := arccos_lip g1 hc1
    have et : thetaOf p = Real.arccos (p.pos 2 / originDist p) := rfl
    rw [et]
    rcases hd with hd | hd
    · refine l2.trans ?_
      gcongr
      refine le_trans (Real.sqrt_le_sqrt ?_) hd
      linarith
    · rw [g2] at l1
      by_cases hz : cylRad p = 0
      · -- on the axis the bound forces a vanishing error
        rw [hz, mul_zero] at hd
        have hE0 : relErr u 4 = 0 := le_antisymm (by by_contra hc; push Not at hc; nlinarith) hE
        rw [hE0] at h2
        have : c = p.pos 2 / originDist p := sub_eq_zero.1 (abs_nonpos_iff.1 h2)
        rw [this, sub_self, abs_zero]
        positivity
      · have hcp : 0 < cylRad p := lt_of_le_of_ne (Real.sqrt_nonneg _) (Ne.symm hz)
        rw [div_mul_eq_mul_div, div_le_iff₀ hrp] at l1
        have h5 : cylRad p * |Real.arccos c - Real.arccos (p.pos 2 / originDist p)| ≤ cylRad p * (Real.pi * d) := calc
          _ ≤ Real.pi * |c - p.pos 2 / originDist p| * originDist p := l1
          _ ≤ Real.pi * relErr u 4 * originDist p := by gcongr
          _ = Real.pi * (relErr u 4 * originDist p) := by ring
          _ ≤ Real.pi * (d * cylRad p) := by gcongr
          _ = _ := by ring
        exact le_of_mul_le_mul_left h5 hcp
  calc |theta - thetaOf p| = |(theta - Real.arccos c) + (Real.arccos c - thetaOf p)| := by ring_nf
    _ ≤ |theta - Real.arccos c| + |Real.arccos c - thetaOf p| := abs_add_le _ _
    _ ≤ u * Real.pi + Real.pi * d := add_le_add h3 h4
    _ = _ := by ring

/-- The computed azimuth, up to whole turns. -/
theorem phi_err (h0 : 0 ≤ u) (h1 : u ≤ 1 / 4) (ha : Accurate a u e) {p : Pt} {phi : ℝ} (h : Phi a p phi) :
    ∃ phi', Real.cos phi' = Real.cos (phiOf p) ∧ Real.sin phi' = Real.sin (phiOf p) ∧ |phi - phi'| ≤ 7 * Real.pi * u := by
  obtain ⟨b, turn, hb, ht, h⟩ := h
  have hpi := Real.pi_pos
  set g := arctan2 (p.pos 1) (p.pos 0) with hg
  have hgp : |g| ≤ Real.pi := Complex.abs_arg_le_pi _
  have hb' : |b - g| ≤ u * Real.pi := (ha.lib _ _ hb).trans (by gcongr)
  have ht' : |turn - 2 * Real.pi| ≤ u * (2 * Real.pi) := by
    have := ha.op _ _ ht
    rwa [abs_of_pos (by positivity : 0 < 2 * Real.pi)] at this
  have ec : Real.cos g = Real.cos (phiOf p) := (pyMod_two_pi_cos _).symm
  have es : Real.sin g = Real.sin (phiOf p) := (pyMod_two_pi_sin _).symm
  rcases h with ⟨-, rfl⟩ | ⟨hb0, hz⟩
  · refine ⟨g, ec, es, hb'.trans ?_⟩
    nlinarith [mul_nonneg h0 hpi.le]
  · refine ⟨g + 2 * Real.pi, by rw [Real.cos_add_two_pi, ec], by rw [Real.sin_add_two_pi, es], ?_⟩
    have hz' := ha.op _ _ hz
    obtain ⟨b1, b2⟩ := abs_le.1 hb'
    obtain ⟨t1, t2⟩ := abs_le.1 ht'
    obtain ⟨g1, g2⟩ := abs_le.1 hgp
    have hup : u * Real.pi ≤ 1 / 4 * Real.pi := by gcongr
    have hup0 : 0 ≤ u * Real.pi := by positivity
    have hs0 : 0 ≤ b + turn := by linarith
    have hs1 : b + turn ≤ 5 / 2 * Real.pi := by linarith
    rw [abs_of_nonneg hs0] at hz'
    have hz2 : u * (b + turn) ≤ u * (5 / 2 * Real.pi) := by gcongr
    obtain ⟨z1, z2⟩ := abs_le.1 (hz'.trans hz2)
    rw [abs_le]
    constructor <;> nlinarith

/-- The computed harmonic of one row. -/
theorem harm_err (h0 : 0 ≤ u) (h1 : u ≤ 1 / 4) (ha : Accurate a u e) {p : Pt} (hp : p.pos ≠ 0) {r phi theta d : ℝ} (hd0 : 0 ≤ d) (hr : Rad a p r)
    (h : Angles a (p, r) (phi, theta)) (hd : Real.sqrt (relErr u 4 / 2) ≤ d ∨ relErr u 4 * originDist p ≤ d * cylRad p)
    {l : ℕ} {m : ℤ} (hm : m.natAbs ≤ l) {Y : ℂ} (hY : a.harm m l phi theta Y) : ‖Y - sphHarm m l (phiOf p) (thetaOf p)‖ ≤ harmErr u d e l := by
  obtain ⟨hphi, hth⟩ := h
  have t := theta_err h0 (by linarith) ha hp hd0 hr hth hd
  obtain ⟨phi', c, s, f⟩ := phi_err h0 h1 ha hphi
  have h2 := sphHarm_lip l m hm phi theta phi' (thetaOf p)
  rw [sphHarm_turn l m hm phi' (phiOf p) (thetaOf p) c s] at h2
  have h3 := ha.harm _ _ _ _ _ hY
  calc _ = ‖(Y - sphHarm m l phi theta) + (sphHarm m l phi theta - sphHarm m l (phiOf p) (thetaOf p))‖ := by congr 1; ring
    _ ≤ ‖Y - sphHarm m l phi theta‖ + ‖sphHarm m l phi theta - sphHarm m l (phiOf p) (thetaOf p)‖ := norm_add_le _ _
    _ ≤ e l + harmMax l * (l * (|theta - thetaOf p| + |phi - phi'|)) := add_le_add h3 h2
    _ ≤ e l + harmMax l * (l * (Real.pi * (d + u) + 7 * Real.pi * u)) := by
        have := harmMax_nonneg l
        gcongr
    _ = _ := by rw [harmErr]; ring

/-! ## Sums -/

theorem acc_near (h0 : 0 ≤ u) (h1 : u < 1) (ha : Accurate a u e) {n : ℕ} {x : Fin n → ℝ} {S : Finset (Fin n)} {s : ℝ} (h : Acc a.op x S s) :
    ∃ θ : Fin n → ℝ, (∀ j, (1 - u) ^ S.card ≤ θ j ∧ θ j ≤ ((1 - u) ^ S.card)⁻¹) ∧ s = ∑ j ∈ S, θ j * x j := by
  have hd : Dot u x (fun _ => 1) S s := by
    induction h with
    | one j => exact Dot.one j (by rw [mul_one, Rd, sub_self, abs_zero]; positivity)
    | add hd _ _ hz ih ih' => exact Dot.add hd ih ih' (ha.op _ _ hz)
  simpa using dot_near h0 h1 hd

theorem sum_near (h0 : 0 ≤ u) (h1 : u < 1) (ha : Accurate a u e) {xs : List ℝ} {s : ℝ} (h : Flt.Sum a.op xs s) :
    ∃ θ : Fin xs.length → ℝ, (∀ j, |θ j - 1| ≤ relErr u xs.length) ∧ s = ∑ j, θ j * xs.get j := by
  rcases h with ⟨rfl, rfl⟩ | h
  · exact ⟨fun _ => 1, by simp [relErr], by simp⟩
  · obtain ⟨θ, ht, e⟩ := acc_near h0 h1 ha h
    rw [Finset.card_univ, Fintype.card_fin] at ht
    refine ⟨θ, fun j => ?_, e⟩
    have := near_err h1 (⟨θ j, (mul_one _).symm, (ht j).1, (ht j).2⟩ : Near u xs.length 1 (θ j))
    simpa using this

theorem sum_err (h0 : 0 ≤ u) (h1 : u < 1) (ha : Accurate a u e) {xs : List ℝ} {s : ℝ} (h : Flt.Sum a.op xs s) :
    |s - xs.sum| ≤ relErr u xs.length * (xs.map fun x => |x|).sum := by
  obtain ⟨θ, ht, rfl⟩ := sum_near h0 h1 ha h
  have hz : xs.sum = ∑ j : Fin xs.length, xs.get j := by
    conv_lhs => rw [← List.ofFn_get xs]
    rw [List.sum_ofFn]
  have hn : (xs.map fun z => |z|).sum = ∑ j : Fin xs.length, |xs.get j| := by
    conv_lhs => rw [← List.ofFn_get xs, List.map_ofFn, List.sum_ofFn]
    rfl
  rw [hz, hn, ← Finset.sum_sub_distrib, Finset.mul_sum]
  refine (Finset.abs_sum_le_sum_abs _ _).trans (Finset.sum_le_sum fun j _ => ?_)
  rw [show θ j * xs.get j - xs.get j = (θ j - 1) * xs.get j by ring, abs_mul]
  exact mul_le_mul_of_nonneg_right (ht j) (abs_nonneg _)

theorem weighted_le (w w' t : ℝ) (hw : |w| ≤ t) (hw' : |w'| ≤ t) (z z' : ℂ) (hr : z'.re = w * z.re) (hi : z'.im = w' * z.im) : ‖z'‖ ≤ t * ‖z‖ := by
  have ht : 0 ≤ t := (abs_nonneg w).trans hw
  refine abs_le_of_sq_le_sq' ?_ (by positivity) |>.2
  rw [mul_pow, ← Complex.normSq_eq_norm_sq, ← Complex.normSq_eq_norm_sq, Complex.normSq_apply, Complex.normSq_apply, hr, hi]
  have h1 : w ^ 2 ≤ t ^ 2 := sq_le_sq' (by linarith [(abs_le.1 hw).1]) (abs_le.1 hw).2
  have h2 : w' ^ 2 ≤ t ^ 2 := sq_le_sq' (by linarith [(abs_le.1 hw').1]) (abs_le.1 hw').2
  nlinarith [mul_le_mul_of_nonneg_right h1 (sq_nonneg z.re), mul_le_mul_of_nonneg_right h2 (sq_nonneg z.im)]

theorem csum_err (h0 : 0 ≤ u) (h1 : u < 1) (ha : Accurate a u e) {zs : List ℂ} {s : ℂ} (h : CSum a.op zs s) :
    ‖s - zs.sum‖ ≤ relErr u zs.length * (zs.map fun z => ‖z‖).sum := by
  obtain ⟨θ, ht, er⟩ := sum_near h0 h1 ha h.1
  obtain ⟨θ', ht', ei⟩ := sum_near h0 h1 ha h.2
  have l1 : (zs.map Complex.re).length = zs.length := List.length_map _
  have l2 : (zs.map Complex.im).length = zs.length := List.length_map _
  set g : Fin zs.length → ℂ := fun j =>
    ⟨(θ (j.cast l1.symm) - 1) * (zs.get j).re, (θ' (j.cast l2.symm) - 1) * (zs.get j).im⟩ with hg
  have hs : s - zs.sum = ∑ j, g j := by
    have hz : zs.sum = ∑ j : Fin zs.length, zs.get j := by
      conv_lhs => rw [← List.ofFn_get zs]
      rw [List.sum_ofFn]
    apply Complex.ext
    · rw [Complex.sub_re, er, hz, Complex.re_sum, Complex.re_sum, hg]
      simp only [sub_mul, one_mul]
      rw [Finset.sum_sub_distrib]
      congr 1
      rw [← Equiv.sum_comp (finCongr l1.symm)]
      refine Finset.sum_congr rfl fun j _ => ?_
      simp
    · rw [Complex.sub_im, ei, hz, Complex.im_sum, Complex.im_sum, hg]
      simp only [sub_mul, one_mul]
      rw [Finset.sum_sub_distrib]
      congr 1
      rw [← Equiv.sum_comp (finCongr l2.symm)]
      refine Finset.sum_congr rfl fun j _ => ?_
      simp
  have hn : (zs.map fun z => ‖z‖).sum = ∑ j : Fin zs.length, ‖zs.get j‖ := by
    conv_lhs => rw [← List.ofFn_get zs, List.map_ofFn, List.sum_ofFn]
    rfl
  rw [hs, hn, Finset.mul_sum]
  refine (norm_sum_le _ _).trans (Finset.sum_le_sum fun j _ => ?_)
  have t1 := (ht (j.cast l1.symm)).trans_eq (congrArg (relErr u) l1)
  have t2 := (ht' (j.cast l2.symm)).trans_eq (congrArg (relErr u) l2)
  exact weighted_le _ _ _ t1 t2 (zs.get j) (g j) rfl rfl

theorem relErr_add (h1 : u < 1) (j k : ℕ) : (1 + relErr u j) * (1 + relErr u k) = 1 + relErr u (j + k) := by
  have : ∀ n : ℕ, 1 + relErr u n = ((1 - u) ^ n)⁻¹ := fun n => by rw [relErr]; ring
  rw [this, this, this, pow_add, mul_inv]

theorem relErr_mono (h0 : 0 ≤ u) (h1 : u < 1) {j k : ℕ} (h : j ≤ k) : relErr u j ≤ relErr u k := by
  rw [relErr, relErr]
  exact sub_le_sub_right (inv_anti₀ (pow_pos (by linarith) k) (pow_le_pow_of_le_one (by linarith) (by linarith) h)) 1

/-- A sum of rows that are known up to `k` roundings and an error of the harmonic. -/
theorem rows_err (h0 : 0 ≤ u) (h1 : u < 1) {ι : Type} {rows : List ι} {zs : List ℂ} {s : ℂ} (W : ι → ℝ) (Y : ι → ℂ) (k N : ℕ) (B eta : ℝ)
    (hB : ∀ x ∈ rows, ‖Y x‖ ≤ B)
    (h : List.Forall₂ (fun x z => ∃ Y' : ℂ, Near u k (W x * Y'.re) z.re ∧ Near u k (W x * Y'.im) z.im ∧ ‖Y' - Y x‖ ≤ eta) rows zs)
    (hs : ‖s - zs.sum‖ ≤ relErr u zs.length * (zs.map fun z => ‖z‖).sum) (hN : rows.length ≤ N) :
    ‖s - (rows.map fun x => (W x : ℂ) * Y x).sum‖ ≤ (rows.map fun x => |W x|).sum * (relErr u (k + N) * (B + eta) + eta) := by
  have hk := relErr_nonneg h0 h1 k
  have key : ∀ (rows : List ι) (zs : List ℂ), (∀ x ∈ rows, ‖Y x‖ ≤ B) →
      List.Forall₂ (fun x z => ∃ Y' : ℂ, Near u k (W x * Y'.re) z.re ∧ Near u k (W x * Y'.im) z.im ∧ ‖Y' - Y x‖ ≤ eta) rows zs →
      ‖zs.sum - (rows.map fun x => (W x : ℂ) * Y x).sum‖ ≤ (rows.map fun x => |W x|).sum * (relErr u k * (B + eta) + eta) ∧
      (zs.map fun z => ‖z‖).sum ≤ (rows.map fun x => |W x|).sum * ((1 + relErr u k) * (B + eta)) := by
    intro rows zs hB h
    induction h with
    | nil => simp
    | @cons x z rows zs hx _ ih =>
      obtain ⟨i1, i2⟩ := ih fun y hy => hB y (List.mem_cons_of_mem _ hy)
      obtain ⟨Y', ⟨θ, er, r1, r2⟩, ⟨θ', ei, s1, s2⟩, hY⟩ := hx
      have hBx := hB x List.mem_cons_self
      have hY' : ‖Y'‖ ≤ B + eta := by
        calc ‖Y'‖ = ‖Y x + (Y' - Y x)‖ := by congr 1; ring
          _ ≤ _ := (norm_add_le _ _).trans (add_le_add hBx hY)
      have t1 : |θ - 1| ≤ relErr u k := by simpa using near_err h1 (⟨θ, (mul_one _).symm, r1, r2⟩ : Near u k 1 θ)
      have t2 : |θ' - 1| ≤ relErr u k := by simpa using near_err h1 (⟨θ', (mul_one _).symm, s1, s2⟩ : Near u k 1 θ')
      have hz1 : ‖z - (W x : ℂ) * Y'‖ ≤ relErr u k * ‖(W x : ℂ) * Y'‖ :=
        weighted_le (θ - 1) (θ' - 1) _ t1 t2 _ _ (by rw [Complex.sub_re, Complex.re_ofReal_mul, er]; ring) (by rw [Complex.sub_im, Complex.im_ofReal_mul, ei]; ring)
      have hWY : ‖(W x : ℂ) * Y'‖ ≤ |W x| * (B + eta) := by
        rw [norm_mul, Complex.norm_real, Real.norm_eq_abs]; gcongr
      have hz2 : ‖z‖ ≤ (1 + relErr u k) * (|W x| * (B + eta)) := by
        calc ‖z‖ = ‖(z - (W x : ℂ) * Y') + (W x : ℂ) * Y'‖ := by congr 1; ring
          _ ≤ ‖z - (W x : ℂ) * Y'‖ + ‖(W x : ℂ) * Y'‖ := norm_add_le _ _
          _ ≤ relErr u k * ‖(W x : ℂ) * Y'‖ + ‖(W x : ℂ) * Y'‖ := by gcongr
          _ = (1 + relErr u k) * ‖(W x : ℂ) * Y'‖ := by ring
          _ ≤ _ := by gcongr
      have hz3 : ‖z - (W x : ℂ) * Y x‖ ≤ |W x| * (relErr u k * (B + eta) + eta) := by
        have e1 : z - (W x : ℂ) * Y x = (z - (W x : ℂ) * Y') + (W x : ℂ) * (Y' - Y x) := by ring
        have e2 : ‖(W x : ℂ) * (Y' - Y x)‖ ≤ |W x| * eta := by rw [norm_mul, Complex.norm_real, Real.norm_eq_abs]; gcongr
        have e3 : relErr u k * ‖(W x : ℂ) * Y'‖ ≤ relErr u k * (|W x| * (B + eta)) := by gcongr
        rw [e1]
        refine (norm_add_le _ _).trans ?_
        linarith
      simp only [List.sum_cons, List.map_cons, add_mul]
      constructor
      · have e1 : z + zs.sum - ((W x : ℂ) * Y x + (rows.map fun x => (W x : ℂ) * Y x).sum) =
          (z - (W x : ℂ) * Y x) + (zs.sum - (rows.map fun x => (W x : ℂ) * Y x).sum) := by ring
        rw [e1]
        exact (norm_add_le _ _).trans (add_le_add hz3 i1)
      · rw [← add_mul, ← add_mul]
        have := add_le_add hz2 i2
        nlinarith
  obtain ⟨k1, k2⟩ := key rows zs hB h
  have hlen : zs.length ≤ N := by rw [← h.length_eq]; exact hN
  have k3 := hs
  have hmono := relErr_mono h0 h1 hlen
  have hN0 := relErr_nonneg h0 h1 N
  have hz0 : 0 ≤ (zs.map fun z => ‖z‖).sum := List.sum_nonneg fun x hx => by
    obtain ⟨z, -, rfl⟩ := List.mem_map.1 hx
    exact norm_nonneg z
  have k4 : relErr u zs.length * (zs.map fun z => ‖z‖).sum ≤ relErr u N * ((rows.map fun x => |W x|).sum * ((1 + relErr u k) * (B + eta))) :=
    mul_le_mul hmono k2 hz0 hN0
  have e1 := relErr_add h1 k N
  have e2 : relErr u (k + N) = relErr u N * (1 + relErr u k) + relErr u k := by linarith
  calc _ = ‖(s - zs.sum) + (zs.sum - (rows.map fun x => (W x : ℂ) * Y x).sum)‖ := by congr 1; ring
    _ ≤ ‖s - zs.sum‖ + ‖zs.sum - (rows.map fun x => (W x : ℂ) * Y x).sum‖ := norm_add_le _ _
    _ ≤ _ := add_le_add (k3.trans k4) k1
    _ = _ := by rw [e2]; ring

/-! ## The rows -/

theorem near_pow (h0 : 0 ≤ u) (h1 : u < 1) {k : ℕ} {x y : ℝ} (h : Near u k x y) (n : ℕ) : Near u (k * n) (x ^ n) (y ^ n) := by
  induction n with
  | zero => exact near_refl h0 h1 _ _
  | succ n ih =>
    rw [pow_succ, pow_succ, Nat.mul_succ]
    exact near_mul h1 ih h

theorem inner_row (h0 : 0 ≤ u) (h1 : u ≤ 1 / 4) (ha : Accurate a u e) {p : Pt} (hp : p.pos ≠ 0) {r d : ℝ} (hd0 : 0 ≤ d) (hr : Rad a p r) {ang : ℝ × ℝ}
    (h : Angles a (p, r) ang) (hd : Real.sqrt (relErr u 4 / 2) ≤ d ∨ relErr u 4 * originDist p ≤ d * cylRad p)
    {l : ℕ} {m : ℤ} (hm : m.natAbs ≤ l) {z : ℂ} (hz : InnerTerm a m l ((p, r), ang) z) :
    ∃ Y' : ℂ, Near u (3 * l + 3) (p.mass * originDist p ^ l * Y'.re) z.re ∧ Near u (3 * l + 3) (p.mass * originDist p ^ l * Y'.im) z.im ∧
      ‖Y' - (starRingEnd ℂ) (sphHarm m l (phiOf p) (thetaOf p))‖ ≤ harmErr u d e l := by
  have h1' : u < 1 := by linarith
  obtain ⟨Y, rl, w, hY, hrl, hw, hre, him⟩ := hz
  have n1 : Near u (3 * l + 1) (originDist p ^ l) rl := near_rd h0 h1' (near_pow h0 h1' (rad_near h0 h1' ha hr) l) (ha.lib _ _ hrl)
  have n2 : Near u (3 * l + 2) (p.mass * originDist p ^ l) w :=
    near_rd h0 h1' (near_mono h0 h1' (by omega) (near_mul (j := 0) h1' (near_refl h0 h1' 0 p.mass) n1)) (ha.op _ _ hw)
  have n3 : ∀ t s : ℝ, a.op (t * w) s → Near u (3 * l + 3) (p.mass * originDist p ^ l * t) s := by
    intro t s hs
    rw [mul_comm (p.mass * originDist p ^ l)]
    exact near_rd h0 h1' (near_mono h0 h1' (by omega) (near_mul (j := 0) h1' (near_refl h0 h1' 0 t) n2)) (ha.op _ _ hs)
  refine ⟨(starRingEnd ℂ) Y, ?_, ?_, ?_⟩
  · rw [Complex.conj_re]; exact n3 _ _ hre
  · rw [Complex.conj_im]; exact n3 _ _ him
  · rw [← map_sub, RCLike.norm_conj]
    exact harm_err h0 h1 ha hp hd0 hr h hd hm hY

theorem outer_row (h0 : 0 ≤ u) (h1 : u ≤ 1 / 4) (ha : Accurate a u e) {p : Pt} (hp : p.pos ≠ 0) {r d : ℝ} (hd0 : 0 ≤ d) (hr : Rad a p r) {ang : ℝ × ℝ}
    (h : Angles a (p, r) ang) (hd : Real.sqrt (relErr u 4 / 2) ≤ d ∨ relErr u 4 * originDist p ≤ d * cylRad p)
    {l : ℕ} {m : ℤ} (hm : m.natAbs ≤ l) {z : ℂ} (hz : OuterTerm a m l ((p, r), ang) z) :
    ∃ Y' : ℂ, Near u (3 * l + 7) (p.mass / originDist p ^ (l + 1) * Y'.re) z.re ∧ Near u (3 * l + 7) (p.mass / originDist p ^ (l + 1) * Y'.im) z.im ∧
      ‖Y' - sphHarm m l (phiOf p) (thetaOf p)‖ ≤ harmErr u d e l := by
  have h1' : u < 1 := by linarith
  obtain ⟨Y, b, rl, s, hY, hbr, hbi, hrl, -, hs, hre, him⟩ := hz
  have n1 : Near u (3 * (l + 1) + 1) (originDist p ^ (l + 1)) rl := near_rd h0 h1' (near_pow h0 h1' (rad_near h0 h1' ha hr) (l + 1)) (ha.lib _ _ hrl)
  have n2 : Near u (3 * l + 5) (1 / originDist p ^ (l + 1)) s :=
    near_mono h0 h1' (by omega) (near_rd h0 h1' (near_div (j := 0) h1' (near_refl h0 h1' 0 1) n1) (ha.op _ _ hs))
  have n3 : ∀ t b z : ℝ, a.op (p.mass * t) b → a.op (b * s) z → Near u (3 * l + 7) (p.mass / originDist p ^ (l + 1) * t) z := by
    intro t b z hb hz
    have n4 : Near u 1 (p.mass * t) b := near_of_rd h0 h1' (ha.op _ _ hb)
    have e1 : p.mass / originDist p ^ (l + 1) * t = p.mass * t * (1 / originDist p ^ (l + 1)) := by ring
    rw [e1]
    exact near_mono h0 h1' (by omega) (near_rd h0 h1' (near_mul h1' n4 n2) (ha.op _ _ hz))
  exact ⟨Y, n3 _ _ _ hbr hre, n3 _ _ _ hbi him, harm_err h0 h1 ha hp hd0 hr h hd hm hY⟩

/-! ## The index arrays -/

theorem rids_eq (h0 : 0 ≤ u) (h1 : u < 1) (ha : Accurate a u e) {A : PtArray} {rs : List ℝ} (h : List.Forall₂ (Rad a) A rs) : rids rs = ridsOf A := by
  rw [rids, ridsOf, h.length_eq]
  refine List.filter_congr fun i hi => ?_
  have hi' : i < rs.length := List.mem_range.1 hi
  have hA : i < A.length := by rw [h.length_eq]; exact hi'
  rw [isOff, decide_eq_decide, List.getElem?_eq_getElem hi', List.getElem?_eq_getElem hA]
  have hR : Rad a A[i] rs[i] := by
    have := (List.forall₂_iff_get.1 h).2 i hA hi'
    simpa using this
  simp only [Option.some.injEq, exists_eq_left']
  rw [rOf_ne_zero]
  exact not_congr (rad_zero_iff h0 h1 ha hR)

open Classical in
theorem offRows_fst (h0 : 0 ≤ u) (h1 : u < 1) (ha : Accurate a u e) {A : PtArray} {rs : List ℝ} (h : List.Forall₂ (Rad a) A rs) :
    (offRows A rs).map Prod.fst = A.filter fun p => decide (p.pos ≠ 0) := by
  induction h with
  | nil => rfl
  | @cons p r A rs hp _ ih =>
    have hz := rad_zero_iff h0 h1 ha hp
    rw [offRows] at ih ⊢
    rw [List.zip_cons_cons, List.filter_cons, List.filter_cons]
    by_cases hr : r = 0
    · rw [if_neg (by simp [hr]), if_neg (by simp [hz.1 hr]), ih]
    · rw [if_pos (by simp [hr]), if_pos (decide_eq_true (show p.pos ≠ 0 from fun e => hr (hz.2 e))), List.map_cons, ih]

theorem takeIds_bound {α : Type} {x y : List α} {is : List ℕ} (h : takeIds x is = some y) : ∀ i ∈ is, i < x.length := by
  intro i hi
  by_contra hc
  have : takeIds x is = none := mapM_opt_none _ _ ⟨i, hi, by rw [List.getElem?_eq_none]; omega⟩
  rw [this] at h
  cases h

/-- If the second filtering of the angles does not raise, it changes nothing. -/
theorem takeIds_same (A : PtArray) {α : Type} {x y : List α} (hl : x.length = (ridsOf A).length) (h : takeIds x (ridsOf A) = some y) :
    OriginLast A ∧ y = x := by
  have hO : OriginLast A := (rids_lt_iff_originLast A).1 fun i hi => hl ▸ takeIds_bound h i hi
  refine ⟨hO, ?_⟩
  obtain ⟨B, O, rfl, hB, hOO⟩ := hO
  rw [ridsOf_originLast B O hB hOO] at h hl
  rw [List.length_range] at hl
  have := mapM_get_range x []
  rw [List.append_nil, hl] at this
  rw [takeIds, this] at h
  exact (Option.some.inj h).symm

open Classical in
theorem filter_length (A : PtArray) : (A.filter fun p => decide (p.pos ≠ 0)).length = (ridsOf A).length := by
  have := takeIds_length A _ _ (takeIds_ridsOf A)
  exact this

end Newt
