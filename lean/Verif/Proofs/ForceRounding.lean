import Verif.Proofs.TorqueRounding
import Verif.Model.ForceFloat
import Verif.Spec.ForceRounding

/-!
# Rounding errors of `force_basis` and `multipole_force`
-/

namespace Newt

open Spec Flt

variable {a : Arith} {u : ℝ} {e : ℕ → ℝ}

/-! ## Operations -/

theorem cop_within (h0 : 0 ≤ u) (h1 : u < 1) (ha : Accurate a u e) {k : ℕ} {w : ℝ} {x y z : ℂ} (h : Within (grow u k) w x y) (hz : COp a y z) :
    Within (grow u (k + 1)) w x z := by
  have := Within.op h0 h1 h (cop_err h0 ha hz)
  rwa [grow_add h1] at this

theorem op_within (h0 : 0 ≤ u) (h1 : u < 1) (ha : Accurate a u e) {k : ℕ} {w : ℝ} {x y z : ℝ} (h : Within (grow u k) w x y) (hz : a.op y z) :
    Within (grow u (k + 1)) w x z := by
  have := Within.op h0 h1 h (ha.op _ _ hz)
  rwa [grow_add h1] at this

theorem same_within {E : Type} [NormedAddCommGroup E] {x : E} {w : ℝ} (h : ‖x‖ ≤ w) : Within (grow u 0) w x x := by
  rw [grow_zero]
  exact Within.refl h le_rfl

theorem cscale_within (h0 : 0 ≤ u) (h1 : u < 1) (ha : Accurate a u e) {i j : ℕ} {ws w s0 s : ℝ} {z0 z v : ℂ} (hs : Within (grow u i) ws s0 s)
    (hz : Within (grow u j) w z0 z) (h : CScale a s z v) : Within (grow u (i + j + 1)) (ws * w) (s0 * z0) v := by
  have := hs.ofReal.mul hz (grow_one_le h0 h1 i)
  rw [grow_add h1] at this
  exact cop_within h0 h1 ha this h

theorem cmul_within (h0 : 0 ≤ u) (h1 : u < 1) (ha : Accurate a u e) {i j : ℕ} {ws w : ℝ} {s0 s z0 z v : ℂ} (hs : Within (grow u i) ws s0 s)
    (hz : Within (grow u j) w z0 z) (h : CMul a s z v) : Within (grow u (i + j + 4)) (ws * w) (s0 * z0) v := by
  have := hs.mul hz (grow_one_le h0 h1 i)
  rw [grow_add h1] at this
  have := this.round (relErr_nonneg h0 h1 4) (cmul_err h0 h1 ha h)
  rwa [show (1 : ℝ) + relErr u 4 = grow u 4 from rfl, grow_add h1] at this

theorem Within.k (h0 : 0 ≤ u) (h1 : u < 1) {E : Type} [NormedAddCommGroup E] {x y : E} {w w' : ℝ} {j k : ℕ} (h : Within (grow u j) w x y) (hjk : j ≤ k)
    (hw : w ≤ w') : Within (grow u k) w' x y :=
  h.mono (grow_one_le h0 h1 j) (grow_mono h0 h1 hjk) hw

theorem cdiv_within (h0 : 0 ≤ u) (h1 : u < 1) (ha : Accurate a u e) {k : ℕ} {w d : ℝ} (hd : 0 < d) {z0 z v : ℂ} (hz : Within (grow u k) w z0 z)
    (h : CDiv a z d v) : Within (grow u (k + 2)) (w / d) (z0 / d) v := by
  have hi : Within (grow u 0) d⁻¹ d⁻¹ d⁻¹ := same_within (by rw [Real.norm_eq_abs, abs_of_pos (by positivity)])
  rcases h with h | ⟨s, hs, h⟩
  · have e1 : z / (d : ℂ) = ((d⁻¹ : ℝ) : ℂ) * z := by push_cast; rw [div_eq_inv_mul]
    rw [e1] at h
    have := cscale_within h0 h1 ha hi hz (v := v) h
    have e2 : ((d⁻¹ : ℝ) : ℂ) * z0 = z0 / d := by push_cast; rw [div_eq_inv_mul]
    rw [e2, ← div_eq_inv_mul] at this
    exact this.k h0 h1 (by omega) le_rfl
  · rw [one_div] at hs
    have := cscale_within h0 h1 ha (op_within h0 h1 ha hi hs) hz h
    have e2 : ((d⁻¹ : ℝ) : ℂ) * z0 = z0 / d := by push_cast; rw [div_eq_inv_mul]
    rw [e2, ← div_eq_inv_mul] at this
    exact this.k h0 h1 (by omega) le_rfl

theorem Within.addk (h0 : 0 ≤ u) (h1 : u < 1) {E : Type} [NormedAddCommGroup E] {x y x' y' : E} {w w' : ℝ} {i j k : ℕ} (h : Within (grow u i) w x y)
    (h' : Within (grow u j) w' x' y') (hi : i ≤ k) (hj : j ≤ k) : Within (grow u k) (w + w') (x + x') (y + y') :=
  (h.k h0 h1 hi le_rfl).add (h'.k h0 h1 hj le_rfl)

theorem Within.subk (h0 : 0 ≤ u) (h1 : u < 1) {E : Type} [NormedAddCommGroup E] {x y x' y' : E} {w w' : ℝ} {i j k : ℕ} (h : Within (grow u i) w x y)
    (h' : Within (grow u j) w' x' y') (hi : i ≤ k) (hj : j ≤ k) : Within (grow u k) (w + w') (x - x') (y - y') :=
  (h.k h0 h1 hi le_rfl).sub (h'.k h0 h1 hj le_rfl)

/-! ## The coefficients -/

theorem solidCoef_nonneg (l : ℕ) (m : ℤ) : 0 ≤ solidCoef l m := by
  rw [solidCoef]
  split_ifs <;> positivity

theorem solidCoef_nat {l m : ℕ} (h : m ≤ l) : solidCoef l m = (5 / 2) ^ l * (l.factorial / ((l - m).factorial * (l + m).factorial)) := by
  rw [solidCoef, if_pos (by simpa using h)]
  simp

theorem solidCoef_out {l : ℕ} {m : ℤ} (h : l < m.natAbs) : solidCoef l m = 0 := by
  rw [solidCoef, if_neg (by omega)]

theorem solidCoef_zero : solidCoef 0 (0 : ℕ) = 1 := by rw [solidCoef_nat le_rfl]; norm_num

theorem solidCoef_top (l : ℕ) : solidCoef l l / (2 * ((l + 1 : ℕ) : ℝ)) ≤ solidCoef (l + 1) ((l + 1 : ℕ)) := by
  rw [solidCoef_nat le_rfl, solidCoef_nat le_rfl]
  have e1 : (((l + 1) + (l + 1)).factorial : ℝ) = (2 * l + 2) * (2 * l + 1) * ((l + l).factorial : ℝ) := by
    rw [show (l + 1) + (l + 1) = (l + l + 1) + 1 by ring, Nat.factorial_succ, Nat.factorial_succ]; push_cast; ring
  rw [e1, Nat.factorial_succ, Nat.sub_self, Nat.sub_self, pow_succ]
  have hf : (0 : ℝ) < ((l + l).factorial : ℝ) := by exact_mod_cast Nat.factorial_pos _
  have hl : (0 : ℝ) < (l.factorial : ℝ) := by exact_mod_cast Nat.factorial_pos _
  push_cast
  rw [div_le_iff₀ (by positivity)]
  have e2 : (5 / 2 : ℝ) ^ l * (5 / 2) * ((l + 1) * (l.factorial : ℝ) / (1 * ((2 * l + 2) * (2 * l + 1) * ((l + l).factorial : ℝ)))) * (2 * (l + 1)) =
      ((5 / 2 : ℝ) ^ l * ((l.factorial : ℝ) / (1 * ((l + l).factorial : ℝ)))) * (5 * (l + 1) / (2 * (2 * l + 1))) := by field_simp
  rw [Nat.factorial_zero, Nat.cast_one, e2]
  refine le_mul_of_one_le_right (by positivity) ?_
  rw [le_div_iff₀ (by positivity)]
  linarith

theorem solidCoef_step {l m : ℕ} (h : m ≤ l) : solidCoef l m * (5 / 2 * (l + 1)) = solidCoef (l + 1) m * (((l + 1 : ℕ) : ℝ) ^ 2 - (m : ℝ) ^ 2) := by
  rw [solidCoef_nat h, solidCoef_nat (by omega : m ≤ l + 1), show l + 1 - m = (l - m) + 1 by omega, show l + 1 + m = (l + m) + 1 by ring, Nat.factorial_succ,
    Nat.factorial_succ, Nat.factorial_succ, pow_succ]
  have h1 : (0 : ℝ) < ((l - m).factorial : ℝ) := by exact_mod_cast Nat.factorial_pos _
  have h2 : (0 : ℝ) < ((l + m).factorial : ℝ) := by exact_mod_cast Nat.factorial_pos _
  have h3 : (m : ℝ) ≤ l := by exact_mod_cast h
  have h4 : (0 : ℝ) < l - m + 1 := by linarith
  push_cast [Nat.cast_sub h]
  field_simp
  try ring

theorem solidCoef_low {l m : ℕ} (h : m ≤ l + 1) :
    ((2 * ((l + 2 : ℕ) : ℝ) - 1) * solidCoef (l + 1) m + solidCoef l m) / (((l + 2 : ℕ) : ℝ) ^ 2 - (m : ℝ) ^ 2) ≤ solidCoef (l + 2) m := by
  have hm : (m : ℝ) ≤ l + 1 := by exact_mod_cast h
  have hm0 : (0 : ℝ) ≤ m := Nat.cast_nonneg _
  have hl0 : (0 : ℝ) ≤ l := Nat.cast_nonneg _
  have hd : 0 < ((l + 2 : ℕ) : ℝ) ^ 2 - (m : ℝ) ^ 2 := by push_cast; nlinarith
  rw [div_le_iff₀ hd]
  have s1 := solidCoef_step (l := l + 1) (m := m) h
  rw [show l + 1 + 1 = l + 2 from rfl] at s1
  rw [← s1]
  have hn := solidCoef_nonneg (l + 1) m
  push_cast
  by_cases hml : m ≤ l
  · have s2 := solidCoef_step hml
    push_cast at s2
    have hb : solidCoef l m ≤ solidCoef (l + 1) m * (2 / 5 * (l + 1)) := by
      have h5 : 0 < 5 / 2 * ((l : ℝ) + 1) := by positivity
      have h6 : solidCoef (l + 1) m * (((l : ℝ) + 1) ^ 2 - (m : ℝ) ^ 2) ≤ solidCoef (l + 1) m * ((l : ℝ) + 1) ^ 2 :=
        mul_le_mul_of_nonneg_left (by nlinarith) hn
      rw [← s2] at h6
      refine le_of_mul_le_mul_right (h6.trans_eq ?_) h5
      ring
    nlinarith
  · rw [solidCoef_out (l := l) (m := (m : ℤ)) (by simp; omega)]
    nlinarith

/-! ## The rows of `force_basis` -/

/-- The computed row `n` of degree `l` agrees with the exact row `R`. -/
def RowOk (u : ℝ) (k : ℕ) (r : ℝ) (l : ℕ) (R n : FBRow) : Prop := ∀ m : ℕ, Within (grow u k) (solidCoef l m * r ^ l) (R.yt m) (n.yt m) ∧
  Within (grow u k) (gradMaj r l m) (R.bX m) (n.bX m) ∧ Within (grow u k) (gradMaj r l m) (R.bY m) (n.bY m) ∧ Within (grow u k) (gradMaj r l m) (R.bZ m) (n.bZ m)

theorem gradMaj_nonneg {r : ℝ} (hr : 0 ≤ r) (l : ℕ) (m : ℤ) : 0 ≤ gradMaj r l m := by
  have := solidCoef_nonneg l m
  rw [gradMaj]
  positivity

theorem gradMaj_mul (r : ℝ) (l : ℕ) (m : ℤ) : gradMaj r l m * r = l * solidCoef l m * r ^ l := by
  rw [gradMaj]
  rcases l with _ | l
  · simp
  · rw [Nat.add_sub_cancel, pow_succ]; ring

theorem grad_top {r : ℝ} (hr : 0 ≤ r) (l : ℕ) :
    (solidCoef l l * r ^ l + gradMaj r l l * r) / (2 * ((l + 1 : ℕ) : ℝ)) ≤ gradMaj r (l + 1) ((l + 1 : ℕ)) := by
  rw [gradMaj_mul, gradMaj, Nat.add_sub_cancel]
  have h := mul_le_mul_of_nonneg_left (solidCoef_top l) (show (0 : ℝ) ≤ ((l + 1 : ℕ) : ℝ) * r ^ l by positivity)
  calc _ = ((l + 1 : ℕ) : ℝ) * r ^ l * (solidCoef l l / (2 * ((l + 1 : ℕ) : ℝ))) := by push_cast; ring
    _ ≤ _ := h
    _ = _ := by ring

theorem solid_top {r : ℝ} (hr : 0 ≤ r) (l : ℕ) : r * (solidCoef l l * r ^ l) / (2 * ((l + 1 : ℕ) : ℝ)) ≤ solidCoef (l + 1) ((l + 1 : ℕ)) * r ^ (l + 1) := by
  have h := mul_le_mul_of_nonneg_left (solidCoef_top l) (show (0 : ℝ) ≤ r ^ (l + 1) by positivity)
  calc _ = r ^ (l + 1) * (solidCoef l l / (2 * ((l + 1 : ℕ) : ℝ))) := by rw [pow_succ]; ring
    _ ≤ _ := h
    _ = _ := by ring

theorem solid_low {r : ℝ} (hr : 0 ≤ r) {l m : ℕ} (h : m ≤ l + 1) :
    ((2 * ((l + 2 : ℕ) : ℝ) - 1) * r * (solidCoef (l + 1) m * r ^ (l + 1)) + r ^ 2 * (solidCoef l m * r ^ l)) / (((l + 2 : ℕ) : ℝ) ^ 2 - (m : ℝ) ^ 2) ≤
      solidCoef (l + 2) m * r ^ (l + 2) := by
  have h := mul_le_mul_of_nonneg_left (solidCoef_low h) (show (0 : ℝ) ≤ r ^ (l + 2) by positivity)
  calc _ = r ^ (l + 2) * (((2 * ((l + 2 : ℕ) : ℝ) - 1) * solidCoef (l + 1) m + solidCoef l m) / (((l + 2 : ℕ) : ℝ) ^ 2 - (m : ℝ) ^ 2)) := by ring
    _ ≤ _ := h
    _ = _ := by ring

theorem grad_low {r : ℝ} (hr : 0 ≤ r) {l m : ℕ} (h : m ≤ l + 1) :
    (2 * ((l + 2 : ℕ) : ℝ) - 1) * (solidCoef (l + 1) m * r ^ (l + 1) + r * gradMaj r (l + 1) m) / (((l + 2 : ℕ) : ℝ) ^ 2 - (m : ℝ) ^ 2) +
      (2 * r * (solidCoef l m * r ^ l) + r ^ 2 * gradMaj r l m) / (((l + 2 : ℕ) : ℝ) ^ 2 - (m : ℝ) ^ 2) ≤ gradMaj r (l + 2) m := by
  have e1 : r * gradMaj r (l + 1) m = ((l + 1 : ℕ) : ℝ) * solidCoef (l + 1) m * r ^ (l + 1) := by rw [mul_comm, gradMaj_mul]
  have e2 : r ^ 2 * gradMaj r l m = l * solidCoef l m * r ^ (l + 1) := by
    rw [pow_two, mul_assoc, mul_comm r (gradMaj r l m), gradMaj_mul, pow_succ]; ring
  have h := mul_le_mul_of_nonneg_left (solidCoef_low h) (show (0 : ℝ) ≤ ((l + 2 : ℕ) : ℝ) * r ^ (l + 1) by positivity)
  rw [e1, e2]
  calc _ = ((l + 2 : ℕ) : ℝ) * r ^ (l + 1) * (((2 * ((l + 2 : ℕ) : ℝ) - 1) * solidCoef (l + 1) m + solidCoef l m) / (((l + 2 : ℕ) : ℝ) ^ 2 - (m : ℝ) ^ 2)) := by
        push_cast; ring
    _ ≤ _ := h
    _ = _ := by rw [gradMaj, show l + 2 - 1 = l + 1 from rfl]; ring

theorem r2_within (h0 : 0 ≤ u) (h1 : u < 1) (ha : Accurate a u e) {x y z r2 : ℝ} (h : R2 a x y z r2) :
    Within (grow u 3) (x ^ 2 + y ^ 2 + z ^ 2) (x ^ 2 + y ^ 2 + z ^ 2) r2 := by
  obtain ⟨sx, sy, sz, t, hx, hy, hz, ht, hr⟩ := h
  have sq : ∀ v s : ℝ, a.op (v ^ 2) s → Within (grow u 1) (v ^ 2) (v ^ 2) s := fun v s hs =>
    op_within h0 h1 ha (same_within (by rw [Real.norm_eq_abs, abs_of_nonneg (by positivity)])) hs
  have g1 := op_within h0 h1 ha ((sq _ _ hx).add (sq _ _ hy)) ht
  exact op_within h0 h1 ha (g1.addk h0 h1 (sq _ _ hz) (k := 2) (by omega) (by omega)) hr

theorem top_within (h0 : 0 ≤ u) (h1 : u < 1) (ha : Accurate a u e) {x y z r : ℝ} (hr : 0 ≤ r) (hw : ‖(x : ℂ) - Complex.I * y‖ ≤ r) {l : ℕ} {p n : FBRow}
    (hp : RowOk u (7 * l) r l (fbRows x y z l).1 p) (h : FbTop a x y (l + 1) p n) :
    Within (grow u (7 * (l + 1))) (solidCoef (l + 1) ((l + 1 : ℕ)) * r ^ (l + 1)) ((fbRows x y z (l + 1)).1.yt (l + 1)) (n.yt (l + 1)) ∧
    Within (grow u (7 * (l + 1))) (gradMaj r (l + 1) ((l + 1 : ℕ))) ((fbRows x y z (l + 1)).1.bX (l + 1)) (n.bX (l + 1)) ∧
    Within (grow u (7 * (l + 1))) (gradMaj r (l + 1) ((l + 1 : ℕ))) ((fbRows x y z (l + 1)).1.bY (l + 1)) (n.bY (l + 1)) ∧
    Within (grow u (7 * (l + 1))) (gradMaj r (l + 1) ((l + 1 : ℕ))) ((fbRows x y z (l + 1)).1.bZ (l + 1)) (n.bZ (l + 1)) := by
  obtain ⟨⟨t1, a1, b1⟩, ⟨t2, s2, a2, b2, c2⟩, ⟨t3, s3, a3, b3, c3⟩, ⟨t4, a4, b4⟩⟩ := h
  obtain ⟨py, pX, pY, pZ⟩ := hp l
  simp only [Nat.add_sub_cancel] at *
  have hd : (0 : ℝ) < 2 * ((l + 1 : ℕ) : ℝ) := by positivity
  have W := same_within (u := u) hw
  have W' : Within (grow u 0) r (-((x : ℂ) - Complex.I * y)) (-((x : ℂ) - Complex.I * y)) := W.neg
  refine ⟨?_, ?_, ?_, ?_⟩
  · have g := cdiv_within h0 h1 ha hd (cmul_within h0 h1 ha W' py a1) b1
    have := g.k h0 h1 (k := 7 * (l + 1)) (by omega) (solid_top hr l)
    convert this using 1
    simp only [fbRows, fbStep, if_true, Nat.add_sub_cancel]
    push_cast
    ring
  · have g1 := cmul_within h0 h1 ha pX W a2
    have g2 := cop_within h0 h1 ha (py.addk h0 h1 g1 (k := 7 * l + 4) (by omega) (by omega)) b2
    have g := cdiv_within h0 h1 ha hd g2.neg c2
    have := g.k h0 h1 (k := 7 * (l + 1)) (by omega) (grad_top hr l)
    convert this using 1
    simp only [fbRows, fbStep, if_true, Nat.add_sub_cancel]
    push_cast
    ring
  · have g1 := cmul_within h0 h1 ha pY W a3
    have pi : Within (grow u (7 * l)) (solidCoef l l * r ^ l) (Complex.I * (fbRows x y z l).1.yt l) (Complex.I * p.yt l) := by
      have hI : Within (grow u 0) 1 Complex.I Complex.I := same_within (by simp)
      have := hI.mul py (grow_one_le h0 h1 0)
      rwa [grow_add h1, one_mul, zero_add] at this
    have g2 := cop_within h0 h1 ha (pi.subk h0 h1 g1 (k := 7 * l + 4) (by omega) (by omega)) b3
    have g := cdiv_within h0 h1 ha hd g2 c3
    have := g.k h0 h1 (k := 7 * (l + 1)) (by omega) (grad_top hr l)
    convert this using 1
    simp only [fbRows, fbStep, if_true, Nat.add_sub_cancel]
    push_cast
    ring
  · have g1 := cmul_within h0 h1 ha pZ W a4
    have g := cdiv_within h0 h1 ha hd g1.neg b4
    have hle : gradMaj r l l * r / (2 * ((l + 1 : ℕ) : ℝ)) ≤ gradMaj r (l + 1) ((l + 1 : ℕ)) := by
      refine le_trans ?_ (grad_top hr l)
      have := solidCoef_nonneg l l
      gcongr
      have : 0 ≤ solidCoef l l * r ^ l := by positivity
      linarith
    have := g.k h0 h1 (k := 7 * (l + 1)) (by omega) hle
    convert this using 1
    simp only [fbRows, fbStep, if_true, Nat.add_sub_cancel]
    push_cast
    ring

theorem sub_within (h0 : 0 ≤ u) (h1 : u < 1) (ha : Accurate a u e) {c r q r2 d wv S T : ℝ} (hd : 0 < d) (hc : |c| ≤ r) (hr2 : Within (grow u 3) (r ^ 2) q r2)
    {v0 v Y0 Y b0 b out : ℂ} {i j k : ℕ} (hv : Within (grow u i) wv v0 v) (hY : Within (grow u j) S Y0 Y) (hb : Within (grow u j) T b0 b)
    (hi : i ≤ k) (hj : j + 7 ≤ k) (h : FbSub a c r2 d v Y b out) :
    Within (grow u (k + 1)) (wv + (2 * r * S + r ^ 2 * T) / d) (v0 - (2 * c * Y0 + q * b0) / d) out := by
  obtain ⟨c2, s1, s2, s, s', a1, a2, a3, a4, a5, a6⟩ := h
  have g1 : Within (grow u 1) (2 * r) (2 * c) c2 := op_within h0 h1 ha (same_within (by
    rw [Real.norm_eq_abs, abs_mul, abs_of_pos (by norm_num : (0 : ℝ) < 2)]; linarith)) a1
  have g2 := cscale_within h0 h1 ha g1 hY a2
  have g3 := cscale_within h0 h1 ha hr2 hb a3
  have g4 := cdiv_within h0 h1 ha hd (cop_within h0 h1 ha (g2.addk h0 h1 g3 (k := j + 4) (by omega) (by omega)) a4) a5
  have g5 := cop_within h0 h1 ha (hv.subk h0 h1 g4 (k := k) hi (by omega)) a6
  convert g5 using 2
  push_cast
  ring

theorem low_within (h0 : 0 ≤ u) (h1 : u < 1) (ha : Accurate a u e) {x y z r r2 : ℝ} (hr : 0 ≤ r) (hx : |x| ≤ r) (hy : |y| ≤ r) (hz : |z| ≤ r)
    (hr2 : Within (grow u 3) (r ^ 2) (x ^ 2 + y ^ 2 + z ^ 2) r2) {l m : ℕ} (hm : m < l + 2) {p pp n : FBRow}
    (hp : RowOk u (7 * (l + 1)) r (l + 1) (fbRows x y z (l + 1)).1 p) (hpp : RowOk u (7 * l) r l (fbRows x y z l).1 pp) (h : FbLow a x y z r2 (l + 2) m p pp n) :
    Within (grow u (7 * (l + 2))) (solidCoef (l + 2) m * r ^ (l + 2)) ((fbRows x y z (l + 2)).1.yt m) (n.yt m) ∧
    Within (grow u (7 * (l + 2))) (gradMaj r (l + 2) m) ((fbRows x y z (l + 2)).1.bX m) (n.bX m) ∧
    Within (grow u (7 * (l + 2))) (gradMaj r (l + 2) m) ((fbRows x y z (l + 2)).1.bY m) (n.bY m) ∧
    Within (grow u (7 * (l + 2))) (gradMaj r (l + 2) m) ((fbRows x y z (l + 2)).1.bZ m) (n.bZ m) := by
  obtain ⟨k, hk, ⟨t1, t2, s1, a1, a2, a3, a4⟩, ⟨tX, vX, b1, b2, b3⟩, ⟨tY, vY, c1, c2, c3⟩, ⟨tZ, sZ, gZ, vZ, d1, d2, d3, d4, d5⟩⟩ := h
  obtain ⟨py, pX, pY, pZ⟩ := hp m
  obtain ⟨qy, qX, qY, qZ⟩ := hpp m
  have hd : (0 : ℝ) < ((l + 2 : ℕ) : ℝ) ^ 2 - (m : ℝ) ^ 2 := by
    have : (m : ℝ) < ((l + 2 : ℕ) : ℝ) := by exact_mod_cast hm
    have : (0 : ℝ) ≤ m := Nat.cast_nonneg _
    nlinarith
  have hl : (0 : ℝ) ≤ 2 * ((l + 2 : ℕ) : ℝ) - 1 := by push_cast; have : (0 : ℝ) ≤ l := Nat.cast_nonneg _; linarith
  have gk : Within (grow u 1) ((2 * ((l + 2 : ℕ) : ℝ) - 1) * r) ((2 * ((l + 2 : ℕ) : ℝ) - 1) * z) k := op_within h0 h1 ha (same_within (by
    rw [Real.norm_eq_abs, abs_mul, abs_of_nonneg hl]
    exact mul_le_mul_of_nonneg_left hz hl)) hk
  have hml : m ≤ l + 1 := by omega
  have hS := solidCoef_nonneg (l + 1) m
  have hlow := grad_low hr hml
  have hle : (2 * ((l + 2 : ℕ) : ℝ) - 1) * r * gradMaj r (l + 1) m / (((l + 2 : ℕ) : ℝ) ^ 2 - (m : ℝ) ^ 2) ≤
      (2 * ((l + 2 : ℕ) : ℝ) - 1) * (solidCoef (l + 1) m * r ^ (l + 1) + r * gradMaj r (l + 1) m) / (((l + 2 : ℕ) : ℝ) ^ 2 - (m : ℝ) ^ 2) := by
    rw [mul_assoc]
    gcongr
    have : 0 ≤ solidCoef (l + 1) m * r ^ (l + 1) := by positivity
    linarith
  have hnm : ¬ m = l + 2 := by omega
  have hn1 : ¬ l + 2 = 1 := by omega
  have e2 : (fbRows x y z (l + 1)).2 = (fbRows x y z l).1 := rfl
  refine ⟨?_, ?_, ?_, ?_⟩
  · have g1 := cscale_within h0 h1 ha gk py a1
    have g2 := cscale_within h0 h1 ha hr2 qy a2
    have g3 := cdiv_within h0 h1 ha hd (cop_within h0 h1 ha (g1.subk h0 h1 g2 (k := 7 * l + 9) (by omega) (by omega)) a3) a4
    have := g3.k h0 h1 (k := 7 * (l + 2)) (by omega) (solid_low hr hml)
    convert this using 1
    rw [fbRows, e2]
    simp only [fbStep, if_neg hnm, if_neg hn1, if_pos hm]
    push_cast
    ring
  · have g1 := cdiv_within h0 h1 ha hd (cscale_within h0 h1 ha gk pX b1) b2
    have g2 := sub_within h0 h1 ha hd hx hr2 g1 qy qX (k := 7 * l + 11) (by omega) (by omega) b3
    have := g2.k h0 h1 (k := 7 * (l + 2)) (by omega) ((add_le_add_left hle _).trans hlow)
    convert this using 1
    rw [fbRows, e2]
    simp only [fbStep, if_neg hnm, if_neg hn1, if_pos hm]
    push_cast
    ring
  · have g1 := cdiv_within h0 h1 ha hd (cscale_within h0 h1 ha gk pY c1) c2
    have g2 := sub_within h0 h1 ha hd hy hr2 g1 qy qY (k := 7 * l + 11) (by omega) (by omega) c3
    have := g2.k h0 h1 (k := 7 * (l + 2)) (by omega) ((add_le_add_left hle _).trans hlow)
    convert this using 1
    rw [fbRows, e2]
    simp only [fbStep, if_neg hnm, if_neg hn1, if_pos hm]
    push_cast
    ring
  · have gz : Within (grow u 0) r z z := same_within (by rw [Real.norm_eq_abs]; exact hz)
    have gl : Within (grow u 0) (2 * ((l + 2 : ℕ) : ℝ) - 1) (2 * ((l + 2 : ℕ) : ℝ) - 1) (2 * ((l + 2 : ℕ) : ℝ) - 1) :=
      same_within (by rw [Real.norm_eq_abs, abs_of_nonneg hl])
    have g1 := cscale_within h0 h1 ha gz pZ d1
    have g2 := cop_within h0 h1 ha (py.addk h0 h1 g1 (k := 7 * l + 8) (by omega) (by omega)) d2
    have g3 := cdiv_within h0 h1 ha hd (cscale_within h0 h1 ha gl g2 d3) d4
    have g4 := sub_within h0 h1 ha hd hz hr2 g3 qy qZ (k := 7 * l + 13) (by omega) (by omega) d5
    have := g4.k h0 h1 (k := 7 * (l + 2)) (by omega) hlow
    convert this using 1
    rw [fbRows, e2]
    simp only [fbStep, if_neg hnm, if_neg hn1, if_pos hm]
    push_cast
    ring

theorem first_within (h0 : 0 ≤ u) (h1 : u < 1) (ha : Accurate a u e) {x y z r : ℝ} (hr : 0 ≤ r) (hz : |z| ≤ r) {p n : FBRow}
    (hp : RowOk u 0 r 0 (fbRows x y z 0).1 p) (h : FbFirst a z p n) :
    Within (grow u 7) (solidCoef 1 (0 : ℕ) * r ^ 1) ((fbRows x y z 1).1.yt 0) (n.yt 0) ∧ Within (grow u 7) (gradMaj r 1 (0 : ℕ)) ((fbRows x y z 1).1.bX 0) (n.bX 0) ∧
    Within (grow u 7) (gradMaj r 1 (0 : ℕ)) ((fbRows x y z 1).1.bY 0) (n.bY 0) ∧ Within (grow u 7) (gradMaj r 1 (0 : ℕ)) ((fbRows x y z 1).1.bZ 0) (n.bZ 0) := by
  obtain ⟨k, hk, ⟨t1, a1, a2⟩, ⟨t2, b1, b2⟩, ⟨t3, c1, c2⟩, ⟨t4, s, v, d1, d2, d3, d4⟩⟩ := h
  obtain ⟨py, pX, pY, pZ⟩ := hp 0
  have c1' : solidCoef 1 (0 : ℕ) = 5 / 2 := by rw [solidCoef_nat (by omega)]; norm_num
  have T0 : gradMaj r 0 (0 : ℕ) = 0 := by simp [gradMaj]
  have T1 : gradMaj r 1 (0 : ℕ) = 5 / 2 := by rw [gradMaj, c1']; norm_num
  rw [solidCoef_zero, pow_zero, mul_one] at py
  rw [T0] at pX pY pZ
  have gk : Within (grow u 1) r (1 * z) k := op_within h0 h1 ha (same_within (by rw [one_mul, Real.norm_eq_abs]; exact hz)) hk
  have g1' : Within (grow u 0) (1 : ℝ) (1 : ℝ) (1 : ℝ) := same_within (by simp)
  have gz : Within (grow u 0) r z z := same_within (by rw [Real.norm_eq_abs]; exact hz)
  rw [c1', T1]
  have hne : ¬ (0 : ℕ) = 0 + 1 := by omega
  refine ⟨?_, ?_, ?_, ?_⟩
  · have g := cdiv_within h0 h1 ha one_pos (cscale_within h0 h1 ha gk py a1) a2
    have := g.k h0 h1 (k := 7) (w' := 5 / 2 * r ^ 1) (by omega) (by linarith)
    convert this using 1
    simp only [fbRows, fbStep, if_neg hne, if_true]
    push_cast
    ring
  · have g := cdiv_within h0 h1 ha one_pos (cscale_within h0 h1 ha gk pX b1) b2
    have := g.k h0 h1 (k := 7) (w' := 5 / 2) (by omega) (by norm_num)
    convert this using 1
    simp only [fbRows, fbStep, if_neg hne, if_true]
    push_cast
    ring
  · have g := cdiv_within h0 h1 ha one_pos (cscale_within h0 h1 ha gk pY c1) c2
    have := g.k h0 h1 (k := 7) (w' := 5 / 2) (by omega) (by norm_num)
    convert this using 1
    simp only [fbRows, fbStep, if_neg hne, if_true]
    push_cast
    ring
  · have g1 := cscale_within h0 h1 ha gz pZ d1
    have g2 := cop_within h0 h1 ha (py.addk h0 h1 g1 (k := 1) (by omega) (by omega)) d2
    have g := cdiv_within h0 h1 ha one_pos (cscale_within h0 h1 ha g1' g2 d3) d4
    have := g.k h0 h1 (k := 7) (w' := 5 / 2) (by omega) (by norm_num)
    convert this using 1
    simp only [fbRows, fbStep, if_neg hne, if_true]
    push_cast
    ring

theorem fbRows_out (x y z : ℝ) {l m : ℕ} (h : l < m) :
    (fbRows x y z l).1.yt m = 0 ∧ (fbRows x y z l).1.bX m = 0 ∧ (fbRows x y z l).1.bY m = 0 ∧ (fbRows x y z l).1.bZ m = 0 := by
  rcases l with _ | l
  · simp only [fbRows, FBRow.init, if_neg (by omega : ¬ m = 0)]
    simp
  · have h1 : ¬ m = l + 1 := by omega
    have h2 : ¬ m < l + 1 := by omega
    have h3 : ¬ m = 0 := by omega
    simp only [fbRows, fbStep, if_neg h1, if_neg h2, if_neg h3, ite_self, and_self]

/-- Every row, for every order. -/
theorem rows_within (h0 : 0 ≤ u) (h1 : u < 1) (ha : Accurate a u e) {L : ℕ} {x y z r : ℝ} (hr : r = Real.sqrt (x ^ 2 + y ^ 2 + z ^ 2)) {rows : ℕ → FBRow}
    (h : FbRows a L x y z rows) : ∀ l, l ≤ L → RowOk u (7 * l) r l (fbRows x y z l).1 (rows l) := by
  obtain ⟨r2, hr2, hinit, hout, htop, hfirst, hlow⟩ := h
  have hr0 : 0 ≤ r := hr ▸ Real.sqrt_nonneg _
  have hrr : r ^ 2 = x ^ 2 + y ^ 2 + z ^ 2 := by rw [hr, Real.sq_sqrt (by positivity)]
  have hx : |x| ≤ r := abs_le_of_sq_le_sq (by nlinarith [sq_nonneg y, sq_nonneg z]) hr0
  have hy : |y| ≤ r := abs_le_of_sq_le_sq (by nlinarith [sq_nonneg x, sq_nonneg z]) hr0
  have hz : |z| ≤ r := abs_le_of_sq_le_sq (by nlinarith [sq_nonneg x, sq_nonneg y]) hr0
  have hw : ‖(x : ℂ) - Complex.I * y‖ ≤ r := by
    refine abs_le_of_sq_le_sq' ?_ hr0 |>.2
    rw [← Complex.normSq_eq_norm_sq, Complex.normSq_apply, hrr]
    simp
    nlinarith [sq_nonneg z]
  have g2 := r2_within h0 h1 ha hr2
  rw [← hrr] at g2
  rw [hrr] at g2
  have g2' : Within (grow u 3) (r ^ 2) (x ^ 2 + y ^ 2 + z ^ 2) r2 := by rw [hrr]; exact g2
  have out : ∀ l, ∀ m, l < m → Within (grow u (7 * l)) (solidCoef l m * r ^ l) ((fbRows x y z l).1.yt m) ((rows l).yt m) ∧
      Within (grow u (7 * l)) (gradMaj r l m) ((fbRows x y z l).1.bX m) ((rows l).bX m) ∧
      Within (grow u (7 * l)) (gradMaj r l m) ((fbRows x y z l).1.bY m) ((rows l).bY m) ∧
      Within (grow u (7 * l)) (gradMaj r l m) ((fbRows x y z l).1.bZ m) ((rows l).bZ m) := by
    intro l m hlm
    obtain ⟨e1, e2, e3, e4⟩ := fbRows_out x y z hlm
    obtain ⟨f1, f2, f3, f4⟩ := hout l m hlm
    rw [e1, e2, e3, e4, f1, f2, f3, f4, gradMaj, solidCoef_out (l := l) (m := (m : ℤ)) (by simpa using hlm)]
    have : Within (grow u (7 * l)) 0 (0 : ℂ) 0 := Within.refl (by simp) (grow_one_le h0 h1 _)
    simpa using this
  have base : RowOk u (7 * 0) r 0 (fbRows x y z 0).1 (rows 0) := by
    intro m
    rcases m with _ | m
    · rw [hinit, solidCoef_zero]
      have := gradMaj_nonneg hr0 0 ((0 : ℕ) : ℤ)
      refine ⟨?_, ?_, ?_, ?_⟩ <;> exact Within.refl (by simp [fbRows, FBRow.init]; try exact this) (grow_one_le h0 h1 _)
    · exact out 0 (m + 1) (by omega)
  have main : ∀ l, (l ≤ L → RowOk u (7 * l) r l (fbRows x y z l).1 (rows l)) ∧ (l + 1 ≤ L → RowOk u (7 * (l + 1)) r (l + 1) (fbRows x y z (l + 1)).1 (rows (l + 1))) := by
    intro l
    induction l with
    | zero =>
      refine ⟨fun _ => base, fun hL m => ?_⟩
      rcases lt_trichotomy m 1 with hm | rfl | hm
      · obtain rfl : m = 0 := by omega
        exact first_within h0 h1 ha hr0 hz base (hfirst hL)
      · exact top_within h0 h1 ha hr0 hw base (htop 1 le_rfl hL)
      · exact out 1 m hm
    | succ l ih =>
      refine ⟨ih.2, fun hL m => ?_⟩
      have hp := ih.2 (by omega)
      have hpp := ih.1 (by omega)
      rcases lt_trichotomy m (l + 2) with hm | rfl | hm
      · exact low_within h0 h1 ha hr0 hx hy hz g2' hm hp hpp (hlow (l + 2) (by omega) hL m hm)
      · exact top_within h0 h1 ha hr0 hw hp (htop (l + 2) (by omega) hL)
      · exact out (l + 2) m hm
  exact fun l hl => (main l).1 hl

end Newt
