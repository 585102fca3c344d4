import Verif.Proofs.TorqueRounding
import Verif.Spec.TorqueRounding
import Verif.Props.MomRounding
import Verif.Props.Truncation
import Verif.Props.Torque

/-!
# C128: rounding and truncation errors of the torque from multipole moments
-/

namespace Newt

open Spec Flt

variable {a : Arith} {u : ℝ} {e : ℕ → ℝ}

theorem sum_Icc_split' (f : ℤ → ℝ) (L : ℕ) :
    ∑ m ∈ Finset.Icc (-(L : ℤ)) L, f m = f 0 + ∑ k ∈ Finset.Icc 1 L, (f k + f (-(k : ℤ))) := by
  have := sum_Icc_split (fun m => (f m : ℂ)) L
  exact_mod_cast this

/-- The torque from perturbed moments. -/
theorem torque_within (h0 : 0 ≤ u) (h1 : u < 1) (ha : Accurate a u e) {L : ℕ} {q0 Q0 q Q : Mom L} {G g : ℝ} (hg : a.op G g) {t : TorqueOut L}
    (h : Flt.torque_lm a q Q g t) {angle : ℝ} {outer : Bool} {tau : ℝ} (ht : Flt.torques_at_angle a t.nc t.ns angle outer tau) {cq cQ : ℝ} (hcq : 1 ≤ cq) (hcQ : 1 ≤ cQ)
    (wq wQ : ℕ → ℤ → ℝ) (hq : ∀ (l : ℕ) (m : ℤ), l ≤ L → m.natAbs ≤ L → Within cq (wq l m) (q0.get l m) (q.get l m))
    (hQ : ∀ (l : ℕ) (m : ℤ), l ≤ L → m.natAbs ≤ L → Within cQ (wQ l m) (Q0.get l m) (Q.get l m)) :
    ∃ tau0, Newt.torques_at_angle (Newt.torque_lm q0 Q0 G).nc (Newt.torque_lm q0 Q0 G).ns angle outer = some tau0 ∧
      |tau - tau0| ≤ (grow u (3 * L + 16) * (cq * cQ) * (1 + u * (1 + L * |angle|)) - 1) *
        (4 * (4 * Real.pi * |G| * ∑ l ∈ Finset.range (L + 1), ∑ m ∈ Finset.Icc (-(L : ℤ)) L, |(m : ℝ)| / (2 * l + 1) * wq l m * wQ l m)) := by
  obtain ⟨c, hc, hent, nm, hnm, hlc, hls, hns⟩ := h
  have hcc : 1 ≤ cq * cQ := one_le_mul_of_one_le_of_one_le hcq hcQ
  set n0 := (Newt.torque_lm q0 Q0 G).nlm with hn0
  set w : ℕ → ℤ → ℝ := fun l m => 4 * Real.pi * |G| * (|(m : ℝ)| / (2 * l + 1)) * wq l m * wQ l m with hw
  set W : ℤ → ℝ := fun m => ∑ l ∈ Finset.range (L + 1), w l m with hW
  have A1 : ∀ m : ℤ, m.natAbs ≤ L → Within (grow u 11 * (cq * cQ) * grow u (L + 1)) (W m) (colSum n0 m) (nm m) := by
    intro m hm
    refine csum_within h0 h1 ha (fun l hl => ?_) (hnm m hm)
    have := entry_within h0 h1 ha hg hc hcq (hq l m (by omega) hm) (hQ l m (by omega) hm) (hent l m (by omega) hm)
    rw [hn0, Newt.torque_lm, torqueOut, Mom.get_ofFn _ (by omega) hm]
    exact this
  set C := grow u (L + 13) * (cq * cQ) with hC
  have hg1 : ∀ k, 1 ≤ grow u k := grow_one_le h0 h1
  have hC1 : 1 ≤ C := one_le_mul_of_one_le_of_one_le (hg1 _) hcc
  have eC : grow u 11 * (cq * cQ) * grow u (L + 1) * grow u 1 = C := by
    calc _ = (grow u 11 * grow u (L + 1) * grow u 1) * (cq * cQ) := by ring
      _ = _ := by rw [grow_add h1, grow_add h1, hC]; congr 2; omega
  have A2 : ∀ k : ℕ, k ≤ L → Within C (W k + W (-(k : ℤ))) (colSum n0 k + colSum n0 (-(k : ℤ))) (t.nc.getD k 0) := by
    intro k hk
    have := Within.op h0 h1 ((A1 k (by omega)).add (A1 (-(k : ℤ)) (by omega))) (cop_err h0 ha (hns k hk).1)
    rwa [eC] at this
  have A3 : ∀ k : ℕ, k ≤ L → Within C (W k + W (-(k : ℤ))) (colSum n0 k - colSum n0 (-(k : ℤ))) (t.ns.getD k 0) := by
    intro k hk
    have := Within.op h0 h1 ((A1 k (by omega)).sub (A1 (-(k : ℤ)) (by omega))) (cop_err h0 ha (hns k hk).2)
    rwa [eC] at this
  have hW0 : W 0 = 0 := by
    rw [hW]
    refine Finset.sum_eq_zero fun l _ => ?_
    simp [hw]
  obtain ⟨-, -, c0, s0, sc, ss, xs, ys, hc0, hs0, hxs, hsc, hys, hss, htau⟩ := ht
  rw [hlc] at hys
  have hsgn : |(if outer then -1 else 1 : ℝ)| = 1 := by cases outer <;> simp
  have hC' : C ≤ C * grow u 1 := le_mul_of_one_le_right (by linarith) (hg1 1)
  have half : ∀ {x x' y : ℝ}, Within C (W ((0 : ℕ) : ℤ) + W (-((0 : ℕ) : ℤ))) x x' → a.op (x' / 2) y → Within (C * grow u 1) 0 (x / 2) y := by
    intro x x' y hx hy
    have h2 := hx.mul (Within.refl (x := (1 / 2 : ℝ)) (w := 1 / 2) (c := 1) (by norm_num) le_rfl) hC1
    simp only [mul_one, mul_one_div] at h2
    have h3 := Within.op h0 h1 h2 (ha.op _ _ hy)
    have e0 : (W ((0 : ℕ) : ℤ) + W (-((0 : ℕ) : ℤ))) / 2 = 0 := by simp [hW0]
    rwa [e0] at h3
  have B0 := half (A2 0 (by omega)).re hc0
  have B0' := half (A3 0 (by omega)).im hs0
  have hwt : ∀ k : ℕ, 0 ≤ (0 : ℝ) := fun _ => le_rfl
  -- the cosine signal
  set Fc : ℕ × Bool → ℝ × (ℝ → ℝ) × ℕ := fun i => if i.2 then ((t.nc.getD i.1 0).re, Real.cos, i.1) else ((t.nc.getD i.1 0).im, Real.sin, i.1) with hFc
  set Fs : ℕ × Bool → ℝ × (ℝ → ℝ) × ℕ := fun i => if i.2 then ((t.ns.getD i.1 0).im, Real.sin, i.1) else ((t.ns.getD i.1 0).re, Real.cos, i.1) with hFs
  have eFc : cTerms t.nc = (waves L).map Fc := by
    rw [cTerms, hlc, waves, List.map_flatMap, Nat.add_sub_cancel]
    simp [hFc]
  have eFs : sTerms (L + 1) t.ns = (waves L).map Fs := by
    rw [sTerms, waves, List.map_flatMap, Nat.add_sub_cancel]
    simp [hFs]
  rw [eFc] at hxs
  rw [eFs] at hys
  obtain ⟨X, hX, B1⟩ := signal_within h0 h1 ha hsgn (n := L) (fun k => (t.nc.getD k 0).re) (fun k => (t.nc.getD k 0).im)
    (fun k => (colSum n0 k + colSum n0 (-(k : ℤ))).re) (fun k => (colSum n0 k + colSum n0 (-(k : ℤ))).im) (fun k : ℕ => W k + W (-(k : ℤ)))
    (c := C * grow u 1) (hC1.trans hC') (fun k _ hk => (A2 k hk).re.mono hC1 hC' le_rfl) (fun k _ hk => (A2 k hk).im.mono hC1 hC' le_rfl)
    (F := Fc) (by rintro ⟨k, b⟩; cases b <;> simp [hFc]) hxs B0 hsc
  obtain ⟨Y, hY, B2⟩ := signal_within h0 h1 ha hsgn (n := L) (fun k => (t.ns.getD k 0).re) (fun k => (t.ns.getD k 0).im)
    (fun k => (colSum n0 k - colSum n0 (-(k : ℤ))).re) (fun k => (colSum n0 k - colSum n0 (-(k : ℤ))).im) (fun k : ℕ => W k + W (-(k : ℤ)))
    (c := C * grow u 1) (hC1.trans hC') (fun k _ hk => (A3 k hk).re.mono hC1 hC' le_rfl) (fun k _ hk => (A3 k hk).im.mono hC1 hC' le_rfl)
    (F := Fs) (by rintro ⟨k, b⟩; cases b <;> simp [hFs]) hys B0' hss
  have B3 := Within.op h0 h1 (B1.add B2) (ha.op _ _ htau)
  have hX1 : ∀ k, X (k, true) = (colSum n0 k + colSum n0 (-(k : ℤ))).re * Real.cos ((if outer then -1 else 1) * k * angle) := fun k => (hX (k, true)).1 (by simp [hFc])
  have hX2 : ∀ k, X (k, false) = (colSum n0 k + colSum n0 (-(k : ℤ))).im * Real.sin ((if outer then -1 else 1) * k * angle) := fun k => (hX (k, false)).2 (by simp [hFc])
  have hY1 : ∀ k, Y (k, true) = (colSum n0 k - colSum n0 (-(k : ℤ))).im * Real.sin ((if outer then -1 else 1) * k * angle) := fun k => (hY (k, true)).2 (by simp [hFs])
  have hY2 : ∀ k, Y (k, false) = (colSum n0 k - colSum n0 (-(k : ℤ))).re * Real.cos ((if outer then -1 else 1) * k * angle) := fun k => (hY (k, false)).1 (by simp [hFs])
  have lc : (Newt.torque_lm q0 Q0 G).nc = (List.range (L + 1)).map fun k : ℕ => colSum n0 k + colSum n0 (-(k : ℤ)) := rfl
  have ls : (Newt.torque_lm q0 Q0 G).ns = (List.range (L + 1)).map fun k : ℕ => colSum n0 k - colSum n0 (-(k : ℤ)) := rfl
  have dc : ∀ k, k ≤ L → (Newt.torque_lm q0 Q0 G).nc.getD k 0 = colSum n0 k + colSum n0 (-(k : ℤ)) := by
    intro k hk
    rw [lc, List.getD_eq_getElem?_getD, List.getElem?_map, List.getElem?_range (by omega)]; rfl
  have ds : ∀ k, k ≤ L → (Newt.torque_lm q0 Q0 G).ns.getD k 0 = colSum n0 k - colSum n0 (-(k : ℤ)) := by
    intro k hk
    rw [ls, List.getD_eq_getElem?_getD, List.getElem?_map, List.getElem?_range (by omega)]; rfl
  have lenc : (Newt.torque_lm q0 Q0 G).nc.length = L + 1 := by rw [lc]; simp
  have lens : (Newt.torque_lm q0 Q0 G).ns.length = L + 1 := by rw [ls]; simp
  refine ⟨_, by
    rw [Newt.torques_at_angle, if_neg]
    rw [lenc, lens]
    rintro (h | h)
    · rw [h] at lenc; simp at lenc
    · omega, ?_⟩
  rw [lenc, Nat.add_sub_cancel]
  dsimp only
  rw [dc 0 (by omega), ds 0 (by omega)]
  have hB := B3.2
  rw [Real.norm_eq_abs] at hB
  refine le_trans (le_of_eq ?_) (hB.trans (le_of_eq ?_))
  · congr 2
    congr 2
    · refine Finset.sum_congr rfl fun k hk => ?_
      rw [Finset.mem_Icc] at hk
      rw [hX1, hX2, dc k hk.2]
    · refine Finset.sum_congr rfl fun k hk => ?_
      rw [Finset.mem_Icc] at hk
      rw [hY1, hY2, ds k hk.2]
  · congr 1
    · congr 1
      rw [hC]
      calc grow u (L + 13) * (cq * cQ) * grow u 1 * (1 + u * (1 + L * |angle|)) * grow u (2 * L + 1) * grow u 1 =
            (grow u (L + 13) * grow u 1 * grow u (2 * L + 1) * grow u 1) * (cq * cQ) * (1 + u * (1 + L * |angle|)) := by ring
        _ = _ := by rw [grow_add h1, grow_add h1, grow_add h1, show L + 13 + 1 + (2 * L + 1) + 1 = 3 * L + 16 by omega]
    · have e1 : ∑ k ∈ Finset.Icc 1 L, 2 * (W k + W (-(k : ℤ))) = 2 * ∑ m ∈ Finset.Icc (-(L : ℤ)) L, W m := by
        rw [sum_Icc_split', hW0, zero_add, Finset.mul_sum]
      rw [e1, hW, Finset.sum_comm, Finset.mul_sum (a := 4 * Real.pi * |G|)]
      rw [show ∀ x : ℝ, 0 + 2 * x + (0 + 2 * x) = 4 * x from fun x => by ring]
      congr 1
      refine Finset.sum_congr rfl fun l _ => ?_
      rw [Finset.mul_sum]
      refine Finset.sum_congr rfl fun m _ => ?_
      rw [hw]; ring

/-- **C128 (torque from given moments).**  Every run of `torque_lm` followed by `torques_at_angle` on given arrays is close to the exact result:
the error is at most `torqueErr` times four times the amplitudes taken without their signs. -/
theorem C128_torque_lm (h0 : 0 ≤ u) (h1 : u < 1) (ha : Accurate a u e) {L : ℕ} (q Q : Mom L) {G g : ℝ} (hg : a.op G g) {t : TorqueOut L}
    (h : Flt.torque_lm a q Q g t) (angle : ℝ) (outer : Bool) {tau : ℝ} (ht : Flt.torques_at_angle a t.nc t.ns angle outer tau) :
    ∃ tau0, Newt.torques_at_angle (Newt.torque_lm q Q G).nc (Newt.torque_lm q Q G).ns angle outer = some tau0 ∧
      |tau - tau0| ≤ torqueErr u L angle * (4 * grossTorqueLM G q Q) := by
  obtain ⟨tau0, h2, h3⟩ := torque_within h0 h1 ha (q0 := q) (Q0 := Q) hg h ht (cq := 1) (cQ := 1) le_rfl le_rfl (fun l m => ‖q.get l m‖) (fun l m => ‖Q.get l m‖)
    (fun l m _ _ => Within.refl le_rfl le_rfl) (fun l m _ _ => Within.refl le_rfl le_rfl)
  refine ⟨tau0, h2, h3.trans_eq ?_⟩
  rw [torqueErr, grossTorqueLM, grow, mul_one, mul_one]

/-! ## From the point masses to the torque -/

theorem qmoments_some {L : ℕ} {A : PtArray} {q : Mom L} (h : Newt.qmoments L A = some q) : L = 0 ∨ OriginLast A := by
  by_contra hc
  push Not at hc
  rw [qmoments_none L A hc.1 hc.2] at h
  cases h

theorem fillNeg_out {L : ℕ} (f : ℕ → ℤ → ℂ) {l : ℕ} {m : ℤ} (hl : l ≤ L) (hm : m.natAbs ≤ L) (h : f l m = 0) (h' : f l (-m) = 0) : (Mom.ofFn L f).fillNeg.get l m = 0 := by
  rw [Mom.get_fillNeg _ hl hm, Mom.get_ofFn _ hl hm, Mom.get_ofFn _ hl (by omega), h, h']
  simp

theorem flt_inner_out {L : ℕ} {A : PtArray} {q : Mom L} (h : Flt.qmoments a L A q) {l : ℕ} {m : ℤ} (hl : l ≤ L) (hm : m.natAbs ≤ L) (hlm : l < m.natAbs) : q.get l m = 0 := by
  obtain ⟨f, rs, ang, q00, -, -, -, -, rfl⟩ := h
  refine fillNeg_out _ hl hm ?_ ?_
  · by_cases h0 : l = 0
    · rw [if_pos h0, if_neg (by omega)]
    · rw [if_neg h0, if_neg (by omega)]
  · by_cases h0 : l = 0
    · rw [if_pos h0, if_neg (by omega)]
    · rw [if_neg h0, if_neg (by omega)]

theorem flt_outer_out {L : ℕ} {A : PtArray} {Q : Mom L} (h : Flt.Qmomentsb a L A Q) {l : ℕ} {m : ℤ} (hl : l ≤ L) (hm : m.natAbs ≤ L) (hlm : l < m.natAbs) : Q.get l m = 0 := by
  obtain ⟨rs, -, ⟨-, rfl⟩ | ⟨-, f, ang, -, -, rfl⟩⟩ := h
  · rw [Mom.get_ofFn _ hl hm]
  · refine fillNeg_out _ hl hm ?_ ?_
    · rw [if_neg (by omega)]
    · rw [if_neg (by omega)]

theorem gross_le (w : Pt → ℝ) (A : PtArray) {c : ℝ} (hw : ∀ p ∈ A, w p ≤ c) : gross w A ≤ absMass A * c := by
  rw [gross, absMass, ← List.sum_map_mul_right]
  exact List.sum_le_sum fun p hp => mul_le_mul_of_nonneg_left (hw p hp) (abs_nonneg _)

theorem norm_list_sum_le (A : PtArray) (f : Pt → ℂ) (w : Pt → ℝ) (h : ∀ p ∈ A, ‖f p‖ ≤ w p) : ‖(A.map f).sum‖ ≤ (A.map w).sum := by
  induction A with
  | nil => simp
  | cons p A ih =>
    rw [List.map_cons, List.map_cons, List.sum_cons, List.sum_cons]
    exact (norm_add_le _ _).trans (add_le_add (h p List.mem_cons_self) (ih fun q hq => h q (List.mem_cons_of_mem _ hq)))

theorem solidS_le (l : ℕ) (m : ℤ) (hm : m.natAbs ≤ l) (x : V3) : ‖solidS l m x‖ ≤ modulus x ^ l * harmMax l := by
  have hx : 0 ≤ modulus x := Real.sqrt_nonneg _
  refine abs_le_of_sq_le_sq' ?_ (mul_nonneg (pow_nonneg hx l) (harmMax_nonneg l)) |>.2
  rw [mul_pow, harmMax_sq]
  have := norm_solidS_sq_le l m hm x
  refine this.trans (le_of_eq ?_)
  ring

theorem innerMoment_size (A : PtArray) (l : ℕ) (m : ℤ) (hm : m.natAbs ≤ l) : ‖innerMoment A l m‖ ≤ gross (fun p => originDist p ^ l) A * harmMax l := by
  rw [innerMoment, gross, ← List.sum_map_mul_right]
  refine norm_list_sum_le A _ _ fun p _ => ?_
  rw [norm_mul, Complex.norm_real, Real.norm_eq_abs, mul_assoc]
  exact mul_le_mul_of_nonneg_left (solidS_le l m hm p.pos) (abs_nonneg _)

theorem outerMoment_size (A : PtArray) (hA : OffOrigin A) (l : ℕ) (m : ℤ) (hm : m.natAbs ≤ l) :
    ‖outerMoment A l m‖ ≤ gross (fun p => 1 / originDist p ^ (l + 1)) A * harmMax l := by
  rw [← outer_sum A hA l m hm, gross, ← List.sum_map_mul_right]
  refine norm_list_sum_le A _ _ fun p _ => ?_
  have hr : (0 : ℝ) ≤ originDist p ^ (l + 1) := pow_nonneg (Real.sqrt_nonneg _) _
  have e1 : rOf p = originDist p := rfl
  rw [outerTerm, norm_div, norm_mul, Complex.norm_real, Complex.norm_real, Real.norm_eq_abs, Real.norm_eq_abs, e1, abs_of_nonneg hr,
    mul_one_div, div_mul_eq_mul_div]
  exact div_le_div_of_nonneg_right (mul_le_mul_of_nonneg_left (sphHarm_le l m hm _ _) (abs_nonneg _)) hr

theorem within_of_err {c1 c2 g y H E : ℝ} {x x' : ℂ} (hg : 0 ≤ g) (hy : 0 ≤ y) (hc1 : 1 ≤ c1) (hx : ‖x‖ ≤ g * y)
    (he : ‖x' - x‖ ≤ g * ((c1 - 1) * (y + H) + H)) (hH : H ≤ E * y) (hc2 : c2 = 1 + E) : Within (c1 * c2) (g * y) x x' := by
  refine ⟨hx, he.trans ?_⟩
  subst hc2
  have h1 : (c1 - 1) * (y + H) + H ≤ (c1 - 1) * (y + E * y) + E * y := by
    have := mul_le_mul_of_nonneg_left hH (by linarith : 0 ≤ c1 - 1)
    linarith
  calc g * ((c1 - 1) * (y + H) + H) ≤ g * ((c1 - 1) * (y + E * y) + E * y) := mul_le_mul_of_nonneg_left h1 hg
    _ = (c1 * (1 + E) - 1) * (g * y) := by ring

theorem harmErr_le (h0 : 0 ≤ u) {d eps : ℝ} (hd : 0 ≤ d) {L l : ℕ} (hl : l ≤ L) (he : e l ≤ eps * harmMax l) :
    harmErr u d e l ≤ (eps + L * (Real.pi * (d + 8 * u))) * harmMax l := by
  have hy := harmMax_nonneg l
  have hpi := Real.pi_pos
  have hl' : (l : ℝ) ≤ L := by exact_mod_cast hl
  have h2 : (l : ℝ) * (Real.pi * (d + 8 * u)) ≤ L * (Real.pi * (d + 8 * u)) := mul_le_mul_of_nonneg_right hl' (by positivity)
  have h3 := mul_le_mul_of_nonneg_left h2 hy
  rw [harmErr]
  linarith

theorem inner_within (h0 : 0 ≤ u) (h1 : u ≤ 1 / 4) (ha : Accurate a u e) {d eps r : ℝ} {L : ℕ} {A : PtArray} (hd : PolarAccuracy u d A)
    (heps : ∀ l, l ≤ L → e l ≤ eps * harmMax l) (hA : ∀ p ∈ A, originDist p ≤ r) {q : Mom L} (h : Flt.qmoments a L A q) {l : ℕ} {m : ℤ} (hl : l ≤ L) (hm : m.natAbs ≤ L) :
    Within (grow u (3 * L + 3 + A.length) * (1 + (eps + L * (Real.pi * (d + 8 * u))))) (if m.natAbs ≤ l then absMass A * r ^ l * harmMax l else 0)
      (innerMoment A l m) (q.get l m) := by
  have h1' : u < 1 := by linarith
  have hpi := Real.pi_pos
  have hE0 : 0 ≤ eps + L * (Real.pi * (d + 8 * u)) := by
    have he : 0 ≤ eps * harmMax 0 := (ha.nonneg 0).trans (heps 0 (by omega))
    have hy : 0 < harmMax 0 := by rw [harmMax]; positivity
    have : 0 ≤ eps := by
      by_contra hc
      push Not at hc
      nlinarith
    have := hd.1
    positivity
  have hgr := grow_one_le h0 h1' (3 * L + 3 + A.length)
  by_cases hml : m.natAbs ≤ l
  · rw [if_pos hml]
    obtain ⟨q0, hq0, hb⟩ := inner_err h0 h1 ha hd.1 h hd.2
    have hO := qmoments_some hq0
    rw [qmoments_closed L A hO] at hq0
    obtain rfl := Option.some.inj hq0
    have hb := hb l m hl hm
    rw [Mom.get_ofFn _ hl hm] at hb
    have hg0 : 0 ≤ gross (fun p => originDist p ^ l) A := gross_nonneg _ _ fun p _ => pow_nonneg (Real.sqrt_nonneg _) l
    have hW := within_of_err (c1 := grow u (3 * l + 3 + A.length)) (c2 := 1 + (eps + L * (Real.pi * (d + 8 * u)))) hg0 (harmMax_nonneg l) (grow_one_le h0 h1' _)
      (innerMoment_size A l m hml) (x' := q.get l m) (by rw [grow, add_sub_cancel_left]; exact hb) (harmErr_le h0 hd.1 hl (heps l hl)) rfl
    refine hW.mono (one_le_mul_of_one_le_of_one_le (grow_one_le h0 h1' _) (by linarith)) ?_ ?_
    · exact mul_le_mul_of_nonneg_right (grow_mono h0 h1' (by omega)) (by linarith)
    · refine mul_le_mul_of_nonneg_right (gross_le _ A fun p hp => ?_) (harmMax_nonneg l)
      exact pow_le_pow_left₀ (Real.sqrt_nonneg _) (hA p hp) l
  · rw [if_neg hml, innerMoment_out A l m (by omega), flt_inner_out h hl hm (by omega)]
    exact Within.refl (by simp) (one_le_mul_of_one_le_of_one_le hgr (by linarith))

theorem outer_within (h0 : 0 ≤ u) (h1 : u ≤ 1 / 4) (ha : Accurate a u e) {d eps R : ℝ} {L : ℕ} {B : PtArray} (hd : PolarAccuracy u d B)
    (heps : ∀ l, l ≤ L → e l ≤ eps * harmMax l) (hR : 0 < R) (hB : ∀ p ∈ B, R ≤ originDist p) {Q : Mom L} (h : Flt.Qmomentsb a L B Q) {l : ℕ} {m : ℤ} (hl : l ≤ L) (hm : m.natAbs ≤ L) :
    Within (grow u (3 * L + 7 + B.length) * (1 + (eps + L * (Real.pi * (d + 8 * u))))) (if m.natAbs ≤ l then absMass B * (1 / R ^ (l + 1)) * harmMax l else 0)
      (outerMoment B l m) (Q.get l m) := by
  have h1' : u < 1 := by linarith
  have hpi := Real.pi_pos
  have hE0 : 0 ≤ eps + L * (Real.pi * (d + 8 * u)) := by
    have he : 0 ≤ eps * harmMax 0 := (ha.nonneg 0).trans (heps 0 (by omega))
    have hy : 0 < harmMax 0 := by rw [harmMax]; positivity
    have : 0 ≤ eps := by
      by_contra hc
      push Not at hc
      nlinarith
    have := hd.1
    positivity
  have hoff : OffOrigin B := fun p hp hc => by
    have h2 := hB p hp
    have h3 : originDist p = 0 := by rw [originDist_eq, modulus_eq_zero]; exact hc
    linarith
  have hgr := grow_one_le h0 h1' (3 * L + 7 + B.length)
  by_cases hml : m.natAbs ≤ l
  · rw [if_pos hml]
    have hb := outer_err h0 h1 ha hd.1 h hd.2 hl hm
    rw [Qmomentsb_closed L B hoff, Mom.get_ofFn _ hl hm] at hb
    have hg0 : 0 ≤ gross (fun p => 1 / originDist p ^ (l + 1)) B := gross_nonneg _ _ fun p _ => one_div_nonneg.2 (pow_nonneg (Real.sqrt_nonneg _) _)
    have hW := within_of_err (c1 := grow u (3 * l + 7 + B.length)) (c2 := 1 + (eps + L * (Real.pi * (d + 8 * u)))) hg0 (harmMax_nonneg l) (grow_one_le h0 h1' _)
      (outerMoment_size B hoff l m hml) (x' := Q.get l m) (by rw [grow, add_sub_cancel_left]; exact hb) (harmErr_le h0 hd.1 hl (heps l hl)) rfl
    refine hW.mono (one_le_mul_of_one_le_of_one_le (grow_one_le h0 h1' _) (by linarith)) ?_ ?_
    · exact mul_le_mul_of_nonneg_right (grow_mono h0 h1' (by omega)) (by linarith)
    · refine mul_le_mul_of_nonneg_right (gross_le _ B fun p hp => ?_) (harmMax_nonneg l)
      exact one_div_le_one_div_of_le (pow_pos hR _) (pow_le_pow_left₀ hR.le (hB p hp) _)
  · rw [if_neg hml, outerMoment_out B l m (by omega), flt_outer_out h hl hm (by omega)]
    exact Within.refl (by simp) (one_le_mul_of_one_le_of_one_le hgr (by linarith))

theorem sum_abs_m (L l : ℕ) (hl : l ≤ L) (c : ℝ) : ∑ m ∈ Finset.Icc (-(L : ℤ)) L, |(m : ℝ)| * (if m.natAbs ≤ l then c else 0) = l * (l + 1) * c := by
  have h1 : ∑ m ∈ Finset.Icc (-(L : ℤ)) L, |(m : ℝ)| * (if m.natAbs ≤ l then c else 0) = ∑ m ∈ Finset.Icc (-(l : ℤ)) l, |(m : ℝ)| * c := by
    rw [← Finset.sum_subset (s₁ := Finset.Icc (-(l : ℤ)) l)]
    · refine Finset.sum_congr rfl fun m hm => ?_
      rw [Finset.mem_Icc] at hm
      rw [if_pos (by omega)]
    · intro m hm
      rw [Finset.mem_Icc] at hm ⊢
      omega
    · intro m _ hm
      rw [Finset.mem_Icc] at hm
      rw [if_neg (by omega), mul_zero]
  rw [h1, ← Finset.sum_mul]
  congr 1
  clear h1 hl
  rw [sum_Icc_split']
  simp only [Int.cast_zero, abs_zero, zero_add, Int.cast_neg, abs_neg, Int.cast_natCast, Nat.abs_cast]
  induction l with
  | zero => simp
  | succ l ih =>
    rw [Finset.sum_Icc_succ_top (by omega), ih]
    push_cast
    ring

/-- The series of the squares, summed. -/
theorem quad_sum_le (x : ℝ) (hx0 : 0 ≤ x) (hx1 : x < 1) (L : ℕ) : ∑ l ∈ Finset.range (L + 1), (l : ℝ) * (l + 1) * x ^ l ≤ 2 * x / (1 - x) ^ 3 := by
  have hk : ∀ L : ℕ, (∑ l ∈ Finset.range (L + 1), (l : ℝ) * (l + 1) * x ^ l) * (1 - x) ^ 3 =
      2 * x - x ^ (L + 1) * (L * (L + 1) * (1 - x) ^ 2 + 2 * (L + 1) - 2 * L * x) := by
    intro L
    induction L with
    | zero => simp; ring
    | succ L ih =>
      rw [Finset.sum_range_succ, add_mul, ih]
      push_cast
      ring
  have h3 : (0 : ℝ) < (1 - x) ^ 3 := pow_pos (by linarith) 3
  rw [le_div_iff₀ h3, hk L]
  have hL : (0 : ℝ) ≤ L := Nat.cast_nonneg L
  have : 0 ≤ x ^ (L + 1) * (L * (L + 1) * (1 - x) ^ 2 + 2 * (L + 1) - 2 * L * x) := by
    refine mul_nonneg (pow_nonneg hx0 _) ?_
    have h4 : 0 ≤ (L : ℝ) * (L + 1) * (1 - x) ^ 2 := by positivity
    nlinarith
  linarith

theorem quad_series_le {r R : ℝ} (hr : 0 ≤ r) (hrR : r < R) (L : ℕ) : ∑ l ∈ Finset.range (L + 1), (l : ℝ) * (l + 1) * (r ^ l * (1 / R ^ (l + 1))) ≤ 2 * r * R / (R - r) ^ 3 := by
  have hR : 0 < R := by linarith
  have h1 := quad_sum_le (r / R) (by positivity) ((div_lt_one hR).2 hrR) L
  have e1 : ∑ l ∈ Finset.range (L + 1), (l : ℝ) * (l + 1) * (r ^ l * (1 / R ^ (l + 1))) = (1 / R) * ∑ l ∈ Finset.range (L + 1), (l : ℝ) * (l + 1) * (r / R) ^ l := by
    rw [Finset.mul_sum]
    refine Finset.sum_congr rfl fun l _ => ?_
    rw [div_pow, pow_succ]
    field_simp
  have e2 : 2 * r * R / (R - r) ^ 3 = (1 / R) * (2 * (r / R) / (1 - r / R) ^ 3) := by
    have : R - r ≠ 0 := by linarith
    have h2 : 1 - r / R = (R - r) / R := by field_simp
    rw [h2]
    field_simp
  rw [e1, e2]
  exact mul_le_mul_of_nonneg_left h1 (by positivity)

/-- **C128 (the whole calculation).**  Point masses `A` within radius `r` of the origin, point masses `B` beyond `R > r`.  Their moments to degree
`L`, `torque_lm` and `torques_at_angle`, all in floating point arithmetic, give the torque about `z` on the turned `A` up to the truncation error
and the rounding error. -/
theorem C128_torque (h0 : 0 ≤ u) (h1 : u ≤ 1 / 4) (ha : Accurate a u e) (A B : PtArray) (r R d eps : ℝ) (hr : 0 ≤ r) (hrR : r < R)
    (hA : ∀ p ∈ A, originDist p ≤ r) (hB : ∀ p ∈ B, R ≤ originDist p) (hdA : PolarAccuracy u d A) (hdB : PolarAccuracy u d B) {L : ℕ} (heps : ∀ l, l ≤ L → e l ≤ eps * harmMax l)
    {q Q : Mom L} (hq : Flt.qmoments a L A q) (hQ : Flt.Qmomentsb a L B Q) {g : ℝ} (hg : a.op BIG_G g) {t : TorqueOut L} (ht : Flt.torque_lm a q Q g t)
    (angle : ℝ) {tau : ℝ} (htau : Flt.torques_at_angle a t.nc t.ns angle false tau) :
    ∃ A' f T, Newt.rotate_point_array A angle ![0, 0, 1] = some A' ∧ Newt.point_matrix_gravity A' B = some (f, T) ∧
      |tau - T 2| ≤ BIG_G * absMass A * absMass B * (r * missed r R L + 8 * r * R / (R - r) ^ 3 * budget u d eps L (A.length + B.length) angle) := by
  have h1' : u < 1 := by linarith
  have hR : 0 < R := by linarith
  have hpi := Real.pi_pos
  have hG : 0 ≤ BIG_G := by rw [BIG_G]; norm_num
  have hE0 : 0 ≤ eps + L * (Real.pi * (d + 8 * u)) := by
    have he : 0 ≤ eps * harmMax 0 := (ha.nonneg 0).trans (heps 0 (by omega))
    have hy : 0 < harmMax 0 := by rw [harmMax]; positivity
    have : 0 ≤ eps := by
      by_contra hc
      push Not at hc
      nlinarith
    have := hdA.1
    positivity
  obtain ⟨q0, hq0, -⟩ := C127_inner h0 h1 ha hq
  have hO := qmoments_some hq0
  rw [qmoments_closed L A hO] at hq0
  have hoff : OffOrigin B := fun p hp hc => by
    have h2 := hB p hp
    have h3 : originDist p = 0 := by rw [originDist_eq, modulus_eq_zero]; exact hc
    linarith
  have eQ := Qmomentsb_closed L B hoff
  obtain ⟨A', f, T, hrot, hpm, tau0, ht0, hmiss⟩ : ∃ A' f T, Newt.rotate_point_array A angle ![0, 0, 1] = some A' ∧ Newt.point_matrix_gravity A' B = some (f, T) ∧
      ∃ tau0, Newt.torques_at_angle (Newt.torque_lm (Mom.ofFn L (innerMoment A)) (Mom.ofFn L (outerMoment B)) BIG_G).nc
        (Newt.torque_lm (Mom.ofFn L (innerMoment A)) (Mom.ofFn L (outerMoment B)) BIG_G).ns angle false = some tau0 ∧
        |tau0 - T 2| ≤ BIG_G * absMass A * absMass B * (r * missed r R L) := by
    have e1 : Mom.ofFn L (innerMoment A) = Mom.ofFn L (Body.points A).inner := by
      apply Mom.ext_get
      intro l m hl hm
      rw [Mom.get_ofFn _ hl hm, Mom.get_ofFn _ hl hm, Body.inner_points]
    have e2 : Mom.ofFn L (outerMoment B) = Mom.ofFn L (Body.points B).outer := by
      apply Mom.ext_get
      intro l m hl hm
      rw [Mom.get_ofFn _ hl hm, Mom.get_ofFn _ hl hm, Body.outer_points]
    have hbA : (Body.points A).InBall r := (Body.points_inBall A r).2 hA
    obtain ⟨t0, k1, k2⟩ := C115_torque_error (Body.points A) (Body.points B) angle r R hr hrR hbA ((Body.points_offBall B R).2 hB) L
    obtain ⟨A', h7, h8⟩ := points_rotate_z A angle
    have hA' : ∀ p ∈ A', modulus p.pos ≤ r := by
      rw [← Body.points_inBall, ← h8]
      exact rotate_inBall hbA _ _ _
    have hap : Apart A' B := by
      intro p hp s hs h
      have h3 := hA' p hp
      have h4 : R ≤ modulus s.pos := hB s hs
      rw [h] at h3; linarith
    obtain ⟨f, T, h3, -, h4⟩ := C80_points _ _ hap
    refine ⟨A', f, T, h7, h3, t0, by rw [e1, e2]; exact k1, ?_⟩
    rwa [absMass_points, absMass_points, h8, h4 2] at k2
  refine ⟨A', f, T, hrot, hpm, ?_⟩
  set c2 := 1 + (eps + L * (Real.pi * (d + 8 * u))) with hc2
  have hc2' : 1 ≤ c2 := by rw [hc2]; linarith
  obtain ⟨tau1, ht1, hround⟩ := torque_within h0 h1' ha (q0 := Mom.ofFn L (innerMoment A)) (Q0 := Mom.ofFn L (outerMoment B)) hg ht htau
    (one_le_mul_of_one_le_of_one_le (grow_one_le h0 h1' (3 * L + 3 + A.length)) hc2') (one_le_mul_of_one_le_of_one_le (grow_one_le h0 h1' (3 * L + 7 + B.length)) hc2')
    (fun l m => if m.natAbs ≤ l then absMass A * r ^ l * harmMax l else 0) (fun l m => if m.natAbs ≤ l then absMass B * (1 / R ^ (l + 1)) * harmMax l else 0)
    (fun l m hl hm => by rw [Mom.get_ofFn _ hl hm]; exact inner_within h0 h1 ha hdA heps hA hq hl hm)
    (fun l m hl hm => by rw [Mom.get_ofFn _ hl hm]; exact outer_within h0 h1 ha hdB heps hR hB hQ hl hm)
  rw [ht0] at ht1
  obtain rfl := Option.some.inj ht1
  have hMA : 0 ≤ absMass A := List.sum_nonneg fun x hx => by
    obtain ⟨p, -, rfl⟩ := List.mem_map.1 hx; exact abs_nonneg _
  have hMB : 0 ≤ absMass B := List.sum_nonneg fun x hx => by
    obtain ⟨p, -, rfl⟩ := List.mem_map.1 hx; exact abs_nonneg _
  have e1 : grow u (3 * L + 16) * (grow u (3 * L + 3 + A.length) * c2 * (grow u (3 * L + 7 + B.length) * c2)) * (1 + u * (1 + L * |angle|)) - 1 =
      budget u d eps L (A.length + B.length) angle := by
    rw [budget, ← hc2, show (1 + relErr u (9 * L + 26 + (A.length + B.length))) = grow u (9 * L + 26 + (A.length + B.length)) from rfl]
    have : grow u (9 * L + 26 + (A.length + B.length)) = grow u (3 * L + 16) * grow u (3 * L + 3 + A.length) * grow u (3 * L + 7 + B.length) := by
      rw [grow_add h1', grow_add h1']; congr 1; omega
    rw [this]; ring
  have hbud : 0 ≤ budget u d eps L (A.length + B.length) angle := by
    rw [← e1]
    have h2 : 1 ≤ 1 + u * (1 + L * |angle|) := by
      have : 0 ≤ u * (1 + L * |angle|) := by positivity
      linarith
    have h3 : 1 ≤ grow u (3 * L + 16) * (grow u (3 * L + 3 + A.length) * c2 * (grow u (3 * L + 7 + B.length) * c2)) * (1 + u * (1 + L * |angle|)) :=
      one_le_mul_of_one_le_of_one_le (one_le_mul_of_one_le_of_one_le (grow_one_le h0 h1' _)
        (one_le_mul_of_one_le_of_one_le (one_le_mul_of_one_le_of_one_le (grow_one_le h0 h1' _) hc2') (one_le_mul_of_one_le_of_one_le (grow_one_le h0 h1' _) hc2'))) h2
    linarith
  have e2 : 4 * Real.pi * |BIG_G| * ∑ l ∈ Finset.range (L + 1), ∑ m ∈ Finset.Icc (-(L : ℤ)) L, |(m : ℝ)| / (2 * l + 1) *
      (if m.natAbs ≤ l then absMass A * r ^ l * harmMax l else 0) * (if m.natAbs ≤ l then absMass B * (1 / R ^ (l + 1)) * harmMax l else 0) =
      BIG_G * absMass A * absMass B * ∑ l ∈ Finset.range (L + 1), (l : ℝ) * (l + 1) * (r ^ l * (1 / R ^ (l + 1))) := by
    rw [abs_of_nonneg hG, Finset.mul_sum, Finset.mul_sum]
    refine Finset.sum_congr rfl fun l hl => ?_
    rw [Finset.mem_range] at hl
    have h2 : ∀ m : ℤ, |(m : ℝ)| / (2 * l + 1) * (if m.natAbs ≤ l then absMass A * r ^ l * harmMax l else 0) * (if m.natAbs ≤ l then absMass B * (1 / R ^ (l + 1)) * harmMax l else 0) =
        |(m : ℝ)| * (if m.natAbs ≤ l then absMass A * absMass B * (r ^ l * (1 / R ^ (l + 1))) / (4 * Real.pi) else 0) := by
      intro m
      split_ifs
      · have h3 := harmMax_sq l
        have h4 : (2 * (l : ℝ) + 1) ≠ 0 := by positivity
        calc _ = |(m : ℝ)| * (absMass A * absMass B * (r ^ l * (1 / R ^ (l + 1)))) * (harmMax l ^ 2 / (2 * l + 1)) := by ring
          _ = _ := by rw [h3]; field_simp
      · simp
    simp only [h2]
    rw [sum_abs_m L l (by omega)]
    field_simp
  rw [e1, e2] at hround
  have h5 := quad_series_le hr hrR L
  have hGM : 0 ≤ BIG_G * absMass A * absMass B := by positivity
  calc |tau - T 2| = |(tau - tau0) + (tau0 - T 2)| := by congr 1; ring
    _ ≤ |tau - tau0| + |tau0 - T 2| := abs_add_le _ _
    _ ≤ budget u d eps L (A.length + B.length) angle * (4 * (BIG_G * absMass A * absMass B * (2 * r * R / (R - r) ^ 3))) + BIG_G * absMass A * absMass B * (r * missed r R L) := by
        refine add_le_add (hround.trans ?_) hmiss
        gcongr
    _ = _ := by ring

/-- **C128 (two calculations agree).**  The torque from the moments and the torque that `point_matrix_gravity` sums up, both computed in floating
point arithmetic, differ by at most the sum of their errors. -/
theorem C128_two_ways (h0 : 0 ≤ u) (h1 : u ≤ 1 / 4) (ha : Accurate a u e) (A B : PtArray) (r R d eps : ℝ) (hr : 0 ≤ r) (hrR : r < R)
    (hA : ∀ p ∈ A, originDist p ≤ r) (hB : ∀ p ∈ B, R ≤ originDist p) (hdA : PolarAccuracy u d A) (hdB : PolarAccuracy u d B) {L : ℕ} (heps : ∀ l, l ≤ L → e l ≤ eps * harmMax l)
    {q Q : Mom L} (hq : Flt.qmoments a L A q) (hQ : Flt.Qmomentsb a L B Q) {g : ℝ} (hg : a.op BIG_G g) {t : TorqueOut L} (ht : Flt.torque_lm a q Q g t)
    {tau : ℝ} (htau : Flt.torques_at_angle a t.nc t.ns 0 false tau) {F T : V3} (hpm : Flt.point_matrix_gravity u A B F T) :
    |tau - T 2| ≤ BIG_G * absMass A * absMass B * (r * missed r R L + 8 * r * R / (R - r) ^ 3 * budget u d eps L (A.length + B.length) 0) +
      relErr u (20 + A.length + B.length) * grossTorque A B 2 := by
  have h1' : u < 1 := by linarith
  obtain ⟨A', f, T0, hrot, hpm0, hb⟩ := C128_torque h0 h1 ha A B r R d eps hr hrR hA hB hdA hdB heps hq hQ hg ht 0 htau
  have eA : A' = A := by
    have hv : (![0, 0, 1] : V3) ≠ 0 := fun hc => by
      have := congrFun hc 2
      simp at this
    rw [rotate_some hv] at hrot
    rw [← Option.some.inj hrot]
    conv_rhs => rw [← List.map_id A]
    refine List.map_congr_left fun p _ => ?_
    have : rz 0 p.pos = p.pos := by
      funext i
      fin_cases i <;> simp [rz]
    rw [rotF_z, this]
    rfl
  subst eA
  obtain ⟨f1, t1, hpm1, hb1⟩ := C112_gravity h0 h1' A' B F T hpm
  rw [hpm0] at hpm1
  obtain ⟨-, rfl⟩ := Prod.mk.inj (Option.some.inj hpm1)
  have hb2 := (hb1 2).2
  calc |tau - T 2| = |(tau - T0 2) - (T 2 - T0 2)| := by congr 1; ring
    _ ≤ |tau - T0 2| + |T 2 - T0 2| := abs_sub _ _
    _ ≤ _ := add_le_add hb hb2

/-! ## Sizes in double precision -/

theorem polar_any (u : ℝ) (A : PtArray) : PolarAccuracy u (Real.sqrt (relErr u 4 / 2)) A := ⟨Real.sqrt_nonneg _, fun _ _ => Or.inl le_rfl⟩

theorem polar_off_axis (h0 : 0 ≤ u) (h1 : u < 1) {A : PtArray} {k : ℝ} (hk : 0 < k) (hA : ∀ p ∈ A, k * originDist p ≤ cylRad p) : PolarAccuracy u (relErr u 4 / k) A :=
  offAxis_hyp h0 h1 hk hA

theorem budget_le {K k E x y z : ℝ} (hK0 : 0 ≤ K) (hk0 : 0 ≤ k) (hE0 : 0 ≤ E) (hK : K ≤ x) (hk : k ≤ y) (hE : E ≤ z) :
    (1 + K) * (1 + k) * (1 + E) ^ 2 - 1 ≤ (1 + x) * (1 + y) * (1 + z) ^ 2 - 1 := by
  have hx : 0 ≤ x := by linarith
  have hy : 0 ≤ y := by linarith
  have : (1 + K) * (1 + k) * (1 + E) ^ 2 ≤ (1 + x) * (1 + y) * (1 + z) ^ 2 := by gcongr
  linarith

/-- **C128 (double precision).**  Up to degree 20, for up to 100000 rows and an angle within one turn, with every operation accurate to `2^-53`: the
rounding part is below `4e-6` if `sph_harm` is accurate to `1e-7` of its largest value, and below `1e-10` if it is accurate to `1e-12` and no row
is within 6 degrees of the `z` axis. -/
theorem C128_double {L N : ℕ} (hL : L ≤ 20) (hN : N ≤ 100000) {angle eps : ℝ} (hang : |angle| ≤ 7) (heps : 0 ≤ eps) :
    (eps ≤ 1e-7 → budget ((2 : ℝ)⁻¹ ^ 53) (Real.sqrt (relErr ((2 : ℝ)⁻¹ ^ 53) 4 / 2)) eps L N angle ≤ 4e-6) ∧
    (eps ≤ 1e-12 → budget ((2 : ℝ)⁻¹ ^ 53) (relErr ((2 : ℝ)⁻¹ ^ 53) 4 / (1 / 10)) eps L N angle ≤ 1e-10) := by
  have hu : (0 : ℝ) ≤ (2 : ℝ)⁻¹ ^ 53 := by positivity
  have hu1 : (2 : ℝ)⁻¹ ^ 53 < 1 := by norm_num
  have h4 : relErr ((2 : ℝ)⁻¹ ^ 53) 4 ≤ 8 * (2 : ℝ)⁻¹ ^ 53 := by
    have := C112_size hu 4 (by norm_num)
    push_cast at this
    linarith
  have h40 := relErr_nonneg hu hu1 4
  have hK0 := relErr_nonneg hu hu1 (9 * L + 26 + N)
  have hK : relErr ((2 : ℝ)⁻¹ ^ 53) (9 * L + 26 + N) ≤ 3e-11 := by
    have hk : ((9 * L + 26 + N : ℕ) : ℝ) ≤ 100206 := by exact_mod_cast (by omega : 9 * L + 26 + N ≤ 100206)
    refine (C112_size hu _ ?_).trans ?_
    · calc ((9 * L + 26 + N : ℕ) : ℝ) * (2 : ℝ)⁻¹ ^ 53 ≤ 100206 * (2 : ℝ)⁻¹ ^ 53 := by gcongr
        _ ≤ 1 / 2 := by norm_num
    · calc 2 * ((9 * L + 26 + N : ℕ) : ℝ) * (2 : ℝ)⁻¹ ^ 53 ≤ 2 * 100206 * (2 : ℝ)⁻¹ ^ 53 := by gcongr
        _ ≤ 3e-11 := by norm_num
  have hL' : (L : ℝ) ≤ 20 := by exact_mod_cast hL
  have hw0 : 0 ≤ (2 : ℝ)⁻¹ ^ 53 * (1 + L * |angle|) := by positivity
  have hw : (2 : ℝ)⁻¹ ^ 53 * (1 + L * |angle|) ≤ 2e-14 := by
    calc (2 : ℝ)⁻¹ ^ 53 * (1 + L * |angle|) ≤ (2 : ℝ)⁻¹ ^ 53 * (1 + 20 * 7) := by gcongr
      _ ≤ 2e-14 := by norm_num
  have hpi : Real.pi ≤ 3.2 := Real.pi_lt_d2.le.trans (by norm_num)
  have hpi0 := Real.pi_pos
  have hE : ∀ d : ℝ, 0 ≤ d → (L : ℝ) * (Real.pi * (d + 8 * (2 : ℝ)⁻¹ ^ 53)) ≤ 64 * (d + 8 * (2 : ℝ)⁻¹ ^ 53) := by
    intro d hd
    calc (L : ℝ) * (Real.pi * (d + 8 * (2 : ℝ)⁻¹ ^ 53)) ≤ 20 * (3.2 * (d + 8 * (2 : ℝ)⁻¹ ^ 53)) := by gcongr
      _ = _ := by ring
  have hE0 : ∀ d : ℝ, 0 ≤ d → 0 ≤ (L : ℝ) * (Real.pi * (d + 8 * (2 : ℝ)⁻¹ ^ 53)) := fun d hd => by positivity
  constructor
  · intro he
    have hd : Real.sqrt (relErr ((2 : ℝ)⁻¹ ^ 53) 4 / 2) ≤ 2.2e-8 := by
      rw [Real.sqrt_le_left (by norm_num)]
      refine le_trans (div_le_div_of_nonneg_right h4 (by norm_num)) ?_
      norm_num
    have hd0 := Real.sqrt_nonneg (relErr ((2 : ℝ)⁻¹ ^ 53) 4 / 2)
    have h5 := hE _ hd0
    have h6 := hE0 _ hd0
    have h7 : 64 * (2.2e-8 + 8 * (2 : ℝ)⁻¹ ^ 53) ≤ 1.5e-6 := by norm_num
    refine (budget_le (z := 1.6e-6) hK0 hw0 (by linarith) hK hw (by linarith)).trans ?_
    norm_num
  · intro he
    have e1 : relErr ((2 : ℝ)⁻¹ ^ 53) 4 / (1 / 10) = 10 * relErr ((2 : ℝ)⁻¹ ^ 53) 4 := by ring
    rw [e1]
    have hd0 : 0 ≤ 10 * relErr ((2 : ℝ)⁻¹ ^ 53) 4 := by linarith
    have h5 := hE _ hd0
    have h6 := hE0 _ hd0
    have h7 : 64 * (10 * (8 * (2 : ℝ)⁻¹ ^ 53) + 8 * (2 : ℝ)⁻¹ ^ 53) ≤ 1e-12 := by norm_num
    refine (budget_le (z := 2e-12) hK0 hw0 (by linarith) hK hw (by linarith)).trans ?_
    norm_num

/-! ## Runs exist -/

theorem cop_exists (hT : Total a) (z : ℂ) : ∃ w, COp a z w := by
  obtain ⟨x, hx⟩ := hT.op z.re
  obtain ⟨y, hy⟩ := hT.op z.im
  exact ⟨⟨x, y⟩, hx, hy⟩

theorem cmul_exists (hT : Total a) (z w : ℂ) : ∃ v, CMul a z w v := by
  obtain ⟨p, hp⟩ := hT.op (z.re * w.re)
  obtain ⟨r, hr⟩ := hT.op (z.im * w.im)
  obtain ⟨x, hx⟩ := hT.op (p - r)
  obtain ⟨p', hp'⟩ := hT.op (z.re * w.im)
  obtain ⟨r', hr'⟩ := hT.op (z.im * w.re)
  obtain ⟨y, hy⟩ := hT.op (p' + r')
  exact ⟨⟨x, y⟩, ⟨p, r, Or.inl hp, Or.inl hr, hx⟩, p', r', Or.inl hp', Or.inl hr', hy⟩

/-- **C128 (`torque_lm` always returns).** -/
theorem C128_torque_lm_returns (hT : Total a) {L : ℕ} (q Q : Mom L) (cnst : ℝ) : ∃ t, Flt.torque_lm a q Q cnst t := by
  obtain ⟨p, hp⟩ := hT.op (-4 * Real.pi)
  obtain ⟨c, hc⟩ := hT.op (p * cnst)
  have hent : ∀ (l : ℕ) (m : ℤ), ∃ n, Entry a c l m (q.get l m) (Q.get l m) n := by
    intro l m
    obtain ⟨lf, hlf⟩ := hT.op (1 / (2 * l + 1))
    obtain ⟨o, ho⟩ := hT.op (lf * m)
    obtain ⟨k, hk⟩ := hT.op (c * o)
    obtain ⟨x, hx⟩ := hT.op (-k * (q.get l m).im)
    obtain ⟨y, hy⟩ := hT.op (k * (q.get l m).re)
    obtain ⟨n, hn⟩ := cmul_exists hT ⟨x, y⟩ (Q.get l m)
    exact ⟨n, lf, o, k, ⟨x, y⟩, hlf, ho, hk, hx, hy, hn⟩
  choose n hn using hent
  have hsum : ∀ m : ℤ, ∃ s, CSum a.op ((List.range (L + 1)).map fun l : ℕ => (Mom.ofFn L n).get l m) s := fun m => csum_exists hT.op _
  choose nm hnm using hsum
  have hcc : ∀ k : ℕ, ∃ z, COp a (nm k + nm (-(k : ℤ))) z := fun k => cop_exists hT _
  have hss : ∀ k : ℕ, ∃ z, COp a (nm k - nm (-(k : ℤ))) z := fun k => cop_exists hT _
  choose nc hnc using hcc
  choose ns hns using hss
  refine ⟨⟨Mom.ofFn L n, (List.range (L + 1)).map nc, (List.range (L + 1)).map ns⟩, c, ⟨p, hp, hc⟩, ?_, nm, fun m _ => hnm m, by simp, by simp, fun k hk => ?_⟩
  · intro l m hl hm
    dsimp only
    rw [Mom.get_ofFn _ hl hm]
    exact hn l m
  · have e : ∀ f : ℕ → ℂ, ((List.range (L + 1)).map f).getD k 0 = f k := fun f => by
      rw [List.getD_eq_getElem?_getD, List.getElem?_map, List.getElem?_range (by omega)]; rfl
    dsimp only
    rw [e, e]
    exact ⟨hnc k, hns k⟩

theorem adds_exists (hT : Total a) (ys : List ℝ) : ∀ s, ∃ t, Adds a.op ys s t := by
  induction ys with
  | nil => exact fun s => ⟨s, .nil s⟩
  | cons y ys ih =>
    intro s
    obtain ⟨s', hs⟩ := hT.op (s + y)
    obtain ⟨t, ht⟩ := ih s'
    exact ⟨t, .cons hs ht⟩

/-- **C128 (`torques_at_angle` returns exactly when the exact call does).** -/
theorem C128_returns (hT : Total a) (tc ts : List ℂ) (angle : ℝ) (outer : Bool) :
    (∃ tau, Flt.torques_at_angle a tc ts angle outer tau) ↔ (Newt.torques_at_angle tc ts angle outer).isSome := by
  have hiff : (Newt.torques_at_angle tc ts angle outer).isSome ↔ tc ≠ [] ∧ tc.length ≤ ts.length := by
    rw [Newt.torques_at_angle]
    by_cases h : tc = [] ∨ ts.length < tc.length
    · rw [if_pos h]
      simp only [Option.isSome_none, Bool.false_eq_true, false_iff]
      rcases h with h | h
      · exact fun hc => hc.1 h
      · exact fun hc => absurd hc.2 (by omega)
    · rw [if_neg h]
      push Not at h
      simp only [Option.isSome_some, true_iff]
      exact h
  rw [hiff]
  constructor
  · rintro ⟨tau, h1, h2, -⟩
    exact ⟨h1, h2⟩
  · rintro ⟨h1, h2⟩
    have hw : ∀ x : ℝ × (ℝ → ℝ) × ℕ, ∃ y, Wave a (if outer then -1 else 1) angle x y := by
      intro x
      obtain ⟨v, hv⟩ := hT.op ((if outer then -1 else 1) * x.2.2 * angle)
      obtain ⟨c, hc⟩ := hT.lib (x.2.1 v)
      obtain ⟨y, hy⟩ := hT.op (x.1 * c)
      exact ⟨y, v, c, hv, hc, hy⟩
    obtain ⟨c0, hc0⟩ := hT.op ((tc.getD 0 0).re / 2)
    obtain ⟨s0, hs0⟩ := hT.op ((ts.getD 0 0).im / 2)
    obtain ⟨xs, hxs⟩ := forall₂_exists (cTerms tc) fun x _ => hw x
    obtain ⟨ys, hys⟩ := forall₂_exists (sTerms tc.length ts) fun x _ => hw x
    obtain ⟨sc, hsc⟩ := adds_exists hT xs c0
    obtain ⟨ss, hss⟩ := adds_exists hT ys s0
    obtain ⟨tau, htau⟩ := hT.op (sc + ss)
    exact ⟨tau, h1, h2, c0, s0, sc, ss, xs, ys, hc0, hs0, hxs, hsc, hys, hss, htau⟩

/-- **C128 (no rounding, no error).**  In exact arithmetic the runs are the exact results. -/
theorem C128_exact (ha : Accurate a 0 e) {L : ℕ} (q Q : Mom L) {g : ℝ} (hg : a.op BIG_G g) {t : TorqueOut L} (h : Flt.torque_lm a q Q g t) (angle : ℝ) (outer : Bool) {tau : ℝ}
    (ht : Flt.torques_at_angle a t.nc t.ns angle outer tau) :
    Newt.torques_at_angle (Newt.torque_lm q Q BIG_G).nc (Newt.torque_lm q Q BIG_G).ns angle outer = some tau := by
  obtain ⟨tau0, h1, h2⟩ := C128_torque_lm le_rfl one_pos ha q Q hg h angle outer ht
  have e1 : torqueErr 0 L angle = 0 := by simp [torqueErr, relErr]
  rw [e1, zero_mul] at h2
  rw [h1, sub_eq_zero.1 (abs_eq_zero.1 (le_antisymm h2 (abs_nonneg _)))]

-- a run of the whole chain in correctly rounded double precision, with rows inside radius 2 and outside radius 4
example : ∃ (q Q : Mom 3) (t : TorqueOut 3) (tau : ℝ), Flt.qmoments ieee53 3 [⟨2, ![1, 0, 1]⟩, ⟨5, ![0, 1, 0]⟩] q ∧ Flt.Qmomentsb ieee53 3 [⟨2, ![3, 4, 1]⟩] Q ∧
    Flt.torque_lm ieee53 q Q (binRound 53 BIG_G) t ∧ Flt.torques_at_angle ieee53 t.nc t.ns 1 false tau ∧
    (∀ p ∈ ([⟨2, ![1, 0, 1]⟩, ⟨5, ![0, 1, 0]⟩] : PtArray), originDist p ≤ 2) ∧ ∀ p ∈ ([⟨2, ![3, 4, 1]⟩] : PtArray), 4 ≤ originDist p := by
  have hA : OffOrigin ([⟨2, ![1, 0, 1]⟩, ⟨5, ![0, 1, 0]⟩] : PtArray) := by
    intro p hp hc
    simp only [List.mem_cons, List.not_mem_nil, or_false] at hp
    rcases hp with rfl | rfl
    · have := congrFun hc 0; simp at this
    · have := congrFun hc 1; simp at this
  obtain ⟨q, hq⟩ := (C127_returns (u := (2 : ℝ)⁻¹ ^ 53) (by positivity) (by norm_num) ieee53_accurate ieee53_total (b := 53) (by norm_num) ieee53_nearest 3
    [⟨2, ![1, 0, 1]⟩, ⟨5, ![0, 1, 0]⟩] (by
      intro p hp
      simp only [List.mem_cons, List.not_mem_nil, or_false] at hp
      rcases hp with rfl | rfl
      · exact rep_one (by norm_num)
      · exact rep_zero _)).2 (by rw [qmoments_closed 3 _ (Or.inr hA.originLast)]; rfl)
  obtain ⟨Q, hQ⟩ := C127_outer_returns (u := (2 : ℝ)⁻¹ ^ 53) (by positivity) (by norm_num) ieee53_accurate ieee53_total (b := 53) (by norm_num) ieee53_nearest 3
    [⟨2, ![3, 4, 1]⟩] (by
      intro p hp
      rw [List.mem_singleton] at hp
      subst hp
      exact rep_one (by norm_num))
  obtain ⟨t, ht⟩ := C128_torque_lm_returns ieee53_total q Q (binRound 53 BIG_G)
  have hlen : t.nc ≠ [] ∧ t.nc.length ≤ t.ns.length := by
    obtain ⟨c, -, -, nm, -, h1, h2, -⟩ := ht
    exact ⟨fun h => by rw [h] at h1; simp at h1, by omega⟩
  obtain ⟨tau, htau⟩ := (C128_returns ieee53_total t.nc t.ns 1 false).2 (by
    rw [Newt.torques_at_angle, if_neg (by rintro (h | h); exacts [hlen.1 h, absurd hlen.2 (by omega)])]; rfl)
  refine ⟨q, Q, t, tau, hq, hQ, ht, htau, ?_, ?_⟩
  · intro p hp
    simp only [List.mem_cons, List.not_mem_nil, or_false] at hp
    rcases hp with rfl | rfl
    · rw [originDist, Real.sqrt_le_left (by norm_num)]; simp only [Matrix.cons_val]; norm_num
    · rw [originDist, Real.sqrt_le_left (by norm_num)]; simp only [Matrix.cons_val]; norm_num
  · intro p hp
    rw [List.mem_singleton] at hp
    subst hp
    rw [originDist]
    refine Real.le_sqrt_of_sq_le ?_
    simp only [Matrix.cons_val]
    norm_num

end Newt
