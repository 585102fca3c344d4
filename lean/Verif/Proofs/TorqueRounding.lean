import Verif.Proofs.MomRounding
import Verif.Model.MultipoleFloat

/-!
# Rounding errors of `torque_lm` and `torques_at_angle`
-/

namespace Newt

open Spec Flt

/-- `x` has size at most `w`, and `y` is within `(c - 1) w` of it. -/
def Within {E : Type} [NormedAddCommGroup E] (c w : ℝ) (x y : E) : Prop := ‖x‖ ≤ w ∧ ‖y - x‖ ≤ (c - 1) * w

section within

variable {E : Type} [NormedAddCommGroup E] {c c' w w' : ℝ} {x y z : E}

theorem Within.nonneg (h : Within c w x y) : 0 ≤ w := (norm_nonneg _).trans h.1

theorem Within.size (h : Within c w x y) : ‖y‖ ≤ c * w := by
  calc ‖y‖ = ‖(y - x) + x‖ := by congr 1; abel
    _ ≤ ‖y - x‖ + ‖x‖ := norm_add_le _ _
    _ ≤ (c - 1) * w + w := add_le_add h.2 h.1
    _ = c * w := by ring

theorem Within.refl (h : ‖x‖ ≤ w) (hc : 1 ≤ c) : Within c w x x := by
  refine ⟨h, ?_⟩
  rw [sub_self, norm_zero]
  exact mul_nonneg (by linarith) ((norm_nonneg _).trans h)

theorem Within.mono (h : Within c w x y) (hc1 : 1 ≤ c) (hc : c ≤ c') (hw : w ≤ w') : Within c' w' x y := by
  refine ⟨h.1.trans hw, h.2.trans ?_⟩
  have := h.nonneg
  exact mul_le_mul (by linarith) hw this (by linarith)

theorem Within.round (h : Within c w x y) {e : ℝ} (he : 0 ≤ e) (hz : ‖z - y‖ ≤ e * ‖y‖) : Within (c * (1 + e)) w x z := by
  refine ⟨h.1, ?_⟩
  calc ‖z - x‖ = ‖(z - y) + (y - x)‖ := by congr 1; abel
    _ ≤ ‖z - y‖ + ‖y - x‖ := norm_add_le _ _
    _ ≤ e * (c * w) + (c - 1) * w := add_le_add (hz.trans (mul_le_mul_of_nonneg_left h.size he)) h.2
    _ = (c * (1 + e) - 1) * w := by ring

theorem Within.add {x' y' : E} (h : Within c w x y) (h' : Within c w' x' y') : Within c (w + w') (x + x') (y + y') := by
  refine ⟨(norm_add_le _ _).trans (add_le_add h.1 h'.1), ?_⟩
  calc ‖y + y' - (x + x')‖ = ‖(y - x) + (y' - x')‖ := by congr 1; abel
    _ ≤ ‖y - x‖ + ‖y' - x'‖ := norm_add_le _ _
    _ ≤ (c - 1) * w + (c - 1) * w' := add_le_add h.2 h'.2
    _ = (c - 1) * (w + w') := by ring

theorem Within.neg (h : Within c w x y) : Within c w (-x) (-y) := by
  refine ⟨by rw [norm_neg]; exact h.1, ?_⟩
  rw [neg_sub_neg, norm_sub_rev]; exact h.2

theorem Within.sub {x' y' : E} (h : Within c w x y) (h' : Within c w' x' y') : Within c (w + w') (x - x') (y - y') := by
  rw [sub_eq_add_neg, sub_eq_add_neg]; exact h.add h'.neg

theorem Within.finsum {ι : Type} (s : Finset ι) (f g : ι → E) (w : ι → ℝ) (h : ∀ i ∈ s, Within c (w i) (f i) (g i)) :
    Within c (∑ i ∈ s, w i) (∑ i ∈ s, f i) (∑ i ∈ s, g i) := by
  refine ⟨(norm_sum_le _ _).trans (Finset.sum_le_sum fun i hi => (h i hi).1), ?_⟩
  rw [← Finset.sum_sub_distrib, Finset.mul_sum]
  exact (norm_sum_le _ _).trans (Finset.sum_le_sum fun i hi => (h i hi).2)

end within

theorem Within.mul {F : Type} [NormedField F] {c c' w w' : ℝ} {x y x' y' : F} (h : Within c w x y) (h' : Within c' w' x' y') (hc : 1 ≤ c) :
    Within (c * c') (w * w') (x * x') (y * y') := by
  have hw := h.nonneg
  have hw' := h'.nonneg
  refine ⟨by rw [norm_mul]; exact mul_le_mul h.1 h'.1 (norm_nonneg _) hw, ?_⟩
  calc ‖y * y' - x * x'‖ = ‖y * (y' - x') + (y - x) * x'‖ := by congr 1; ring
    _ ≤ ‖y * (y' - x')‖ + ‖(y - x) * x'‖ := norm_add_le _ _
    _ = ‖y‖ * ‖y' - x'‖ + ‖y - x‖ * ‖x'‖ := by rw [norm_mul, norm_mul]
    _ ≤ (c * w) * ((c' - 1) * w') + ((c - 1) * w) * w' :=
        add_le_add (mul_le_mul h.size h'.2 (norm_nonneg _) (by positivity)) (mul_le_mul h.2 h'.1 (norm_nonneg _) (mul_nonneg (by linarith) hw))
    _ = (c * c' - 1) * (w * w') := by ring

theorem Within.re {c w : ℝ} {x y : ℂ} (h : Within c w x y) : Within c w x.re y.re := by
  refine ⟨(Complex.abs_re_le_norm x).trans h.1, ?_⟩
  rw [← Complex.sub_re]
  exact (Complex.abs_re_le_norm _).trans h.2

theorem Within.im {c w : ℝ} {x y : ℂ} (h : Within c w x y) : Within c w x.im y.im := by
  refine ⟨(Complex.abs_im_le_norm x).trans h.1, ?_⟩
  rw [← Complex.sub_im]
  exact (Complex.abs_im_le_norm _).trans h.2

variable {a : Arith} {u : ℝ} {e : ℕ → ℝ}

/-- The growth factor of `k` roundings. -/
noncomputable def grow (u : ℝ) (k : ℕ) : ℝ := 1 + relErr u k

theorem grow_add (h1 : u < 1) (j k : ℕ) : grow u j * grow u k = grow u (j + k) := relErr_add h1 j k

theorem grow_one_le (h0 : 0 ≤ u) (h1 : u < 1) (k : ℕ) : 1 ≤ grow u k := by
  have := relErr_nonneg h0 h1 k
  rw [grow]; linarith

theorem grow_mono (h0 : 0 ≤ u) (h1 : u < 1) {j k : ℕ} (h : j ≤ k) : grow u j ≤ grow u k := by
  have := relErr_mono h0 h1 h
  rw [grow, grow]; linarith

theorem u_le_relErr (h0 : 0 ≤ u) (h1 : u < 1) : u ≤ relErr u 1 := by
  rw [relErr, pow_one]
  have h2 : 0 < 1 - u := by linarith
  have : (1 - u) * (1 + u) ≤ 1 := by nlinarith
  have h3 : 1 + u ≤ (1 - u)⁻¹ := by
    rw [← one_div, le_div_iff₀ h2]; linarith
  linarith

theorem grow_zero : grow u 0 = 1 := by simp [grow, relErr]

/-- One rounded operation. -/
theorem Within.op {E : Type} [NormedAddCommGroup E] (h0 : 0 ≤ u) (h1 : u < 1) {c w : ℝ} {x y z : E} (h : Within c w x y) (hz : ‖z - y‖ ≤ u * ‖y‖) :
    Within (c * grow u 1) w x z :=
  h.round (relErr_nonneg h0 h1 1) (hz.trans (mul_le_mul_of_nonneg_right (u_le_relErr h0 h1) (norm_nonneg _)))

theorem cop_err (h0 : 0 ≤ u) (ha : Accurate a u e) {z w : ℂ} (h : COp a z w) : ‖w - z‖ ≤ u * ‖z‖ := by
  refine abs_le_of_sq_le_sq' ?_ (by positivity) |>.2
  have h1 := ha.op _ _ h.1
  have h2 := ha.op _ _ h.2
  rw [mul_pow, ← Complex.normSq_eq_norm_sq, ← Complex.normSq_eq_norm_sq, Complex.normSq_apply, Complex.normSq_apply, Complex.sub_re, Complex.sub_im]
  have h3 : (w.re - z.re) ^ 2 ≤ (u * |z.re|) ^ 2 := sq_le_sq' (by linarith [(abs_le.1 h1).1]) (abs_le.1 h1).2
  have h4 : (w.im - z.im) ^ 2 ≤ (u * |z.im|) ^ 2 := sq_le_sq' (by linarith [(abs_le.1 h2).1]) (abs_le.1 h2).2
  rw [mul_pow, sq_abs] at h3 h4
  nlinarith

theorem prod_within (h0 : 0 ≤ u) (h1 : u < 1) (ha : Accurate a u e) {x y p : ℝ} (h : Flt.Prod a x y p) : Within (grow u 1) |x * y| (x * y) p := by
  rcases h with h | rfl
  · have := Within.op h0 h1 (Within.refl (x := x * y) (w := |x * y|) (c := 1) le_rfl le_rfl) (ha.op _ _ h)
    rwa [one_mul] at this
  · exact Within.refl le_rfl (grow_one_le h0 h1 1)

theorem two_products (x y c d : ℝ) : (|x * c| + |y * d|) ^ 2 ≤ (x ^ 2 + y ^ 2) * (c ^ 2 + d ^ 2) := by
  have h1 := sq_nonneg (|x| * |d| - |y| * |c|)
  rw [abs_mul, abs_mul]
  have := sq_abs x
  have := sq_abs y
  have := sq_abs c
  have := sq_abs d
  nlinarith

/-- One complex multiplication counts as four roundings. -/
theorem cmul_err (h0 : 0 ≤ u) (h1 : u < 1) (ha : Accurate a u e) {z w v : ℂ} (h : CMul a z w v) : ‖v - z * w‖ ≤ relErr u 4 * ‖z * w‖ := by
  obtain ⟨⟨p, r, hp, hr, hv⟩, p', r', hp', hr', hv'⟩ := h
  have g1 : Within (grow u 1 * grow u 1) _ _ v.re := Within.op h0 h1 ((prod_within h0 h1 ha hp).sub (prod_within h0 h1 ha hr)) (ha.op _ _ hv)
  have g2 : Within (grow u 1 * grow u 1) _ _ v.im := Within.op h0 h1 ((prod_within h0 h1 ha hp').add (prod_within h0 h1 ha hr')) (ha.op _ _ hv')
  rw [grow_add h1] at g1 g2
  have k1 := g1.2
  have k2 := g2.2
  set t := relErr u 2 with ht
  have t0 : 0 ≤ t := relErr_nonneg h0 h1 2
  have e1 : grow u (1 + 1) - 1 = t := by rw [grow, ht]; ring
  rw [e1, Real.norm_eq_abs] at k1 k2
  have b1 := two_products z.re z.im w.re w.im
  have b2 := two_products z.re z.im w.im w.re
  have hN : ‖z * w‖ ^ 2 = (z.re ^ 2 + z.im ^ 2) * (w.re ^ 2 + w.im ^ 2) := by
    rw [norm_mul, mul_pow, ← Complex.normSq_eq_norm_sq, ← Complex.normSq_eq_norm_sq, Complex.normSq_apply, Complex.normSq_apply]; ring
  have h4 : 2 * t ≤ relErr u 4 := by
    have := relErr_add h1 2 2
    rw [← ht] at this
    nlinarith
  have h5 : ‖v - z * w‖ ≤ 2 * t * ‖z * w‖ := by
    refine abs_le_of_sq_le_sq' ?_ (by positivity) |>.2
    rw [mul_pow, hN, ← Complex.normSq_eq_norm_sq, Complex.normSq_apply, Complex.sub_re, Complex.sub_im, Complex.mul_re, Complex.mul_im]
    have s1 : (v.re - (z.re * w.re - z.im * w.im)) ^ 2 ≤ (t * (|z.re * w.re| + |z.im * w.im|)) ^ 2 :=
      sq_le_sq' (by linarith [(abs_le.1 k1).1]) (abs_le.1 k1).2
    have s2 : (v.im - (z.re * w.im + z.im * w.re)) ^ 2 ≤ (t * (|z.re * w.im| + |z.im * w.re|)) ^ 2 :=
      sq_le_sq' (by linarith [(abs_le.1 k2).1]) (abs_le.1 k2).2
    rw [mul_pow] at s1 s2
    have m1 := mul_le_mul_of_nonneg_left b1 (sq_nonneg t)
    have m2 := mul_le_mul_of_nonneg_left b2 (sq_nonneg t)
    have m3 : 0 ≤ t ^ 2 * ((z.re ^ 2 + z.im ^ 2) * (w.re ^ 2 + w.im ^ 2)) := by positivity
    nlinarith
  exact h5.trans (mul_le_mul_of_nonneg_right h4 (norm_nonneg _))

/-- A sum in any order. -/
theorem csum_within (h0 : 0 ≤ u) (h1 : u < 1) (ha : Accurate a u e) {n : ℕ} {f g : ℕ → ℂ} {w : ℕ → ℝ} {c : ℝ} {s : ℂ}
    (h : ∀ l < n, Within c (w l) (f l) (g l)) (hs : CSum a.op ((List.range n).map g) s) :
    Within (c * grow u n) (∑ l ∈ Finset.range n, w l) (∑ l ∈ Finset.range n, f l) s := by
  have h2 := csum_err h0 h1 ha hs
  have e1 : ((List.range n).map g).sum = ∑ l ∈ Finset.range n, g l := rfl
  have e2 : (((List.range n).map g).map fun z => ‖z‖).sum = ∑ l ∈ Finset.range n, ‖g l‖ := by rw [List.map_map]; rfl
  rw [e1, e2, List.length_map, List.length_range] at h2
  have h3 := Within.finsum (Finset.range n) f g w fun l hl => h l (Finset.mem_range.1 hl)
  refine ⟨h3.1, ?_⟩
  have h4 : ∑ l ∈ Finset.range n, ‖g l‖ ≤ c * ∑ l ∈ Finset.range n, w l := by
    rw [Finset.mul_sum]
    exact Finset.sum_le_sum fun l hl => (h l (Finset.mem_range.1 hl)).size
  calc ‖s - ∑ l ∈ Finset.range n, f l‖ = ‖(s - ∑ l ∈ Finset.range n, g l) + (∑ l ∈ Finset.range n, g l - ∑ l ∈ Finset.range n, f l)‖ := by congr 1; ring
    _ ≤ _ := norm_add_le _ _
    _ ≤ relErr u n * (c * ∑ l ∈ Finset.range n, w l) + (c - 1) * ∑ l ∈ Finset.range n, w l :=
        add_le_add (h2.trans (mul_le_mul_of_nonneg_left h4 (relErr_nonneg h0 h1 n))) h3.2
    _ = (c * grow u n - 1) * ∑ l ∈ Finset.range n, w l := by rw [grow]; ring

/-- A sum from the left, onto an accumulator. -/
theorem adds_within (h0 : 0 ≤ u) (h1 : u < 1) (ha : Accurate a u e) {ι : Type} {w x : ι → ℝ} {ys : List ℝ} {s t : ℝ} (h : Adds a.op ys s t) :
    ∀ {c w0 x0 : ℝ} {is : List ι}, 1 ≤ c → Within c w0 x0 s → List.Forall₂ (fun i y => Within c (w i) (x i) y) is ys →
      Within (c * grow u is.length) (w0 + (is.map w).sum) (x0 + (is.map x).sum) t := by
  induction h with
  | nil s =>
    intro c w0 x0 is _ h hall
    cases hall
    rw [List.length_nil, grow_zero, mul_one]
    simpa using h
  | @cons y s s' t ys hop _ ih =>
    intro c w0 x0 is hc h hall
    cases hall with
    | @cons i _ is _ hy hall =>
    have g := Within.op h0 h1 (h.add hy) (ha.op _ _ hop)
    have hg := grow_one_le h0 h1 1
    have hcg : c ≤ c * grow u 1 := le_mul_of_one_le_right (by linarith) hg
    have := ih (c := c * grow u 1) (is := is) (by linarith) g (hall.imp fun i y hi => hi.mono hc hcg le_rfl)
    rw [mul_assoc, grow_add h1] at this
    rw [List.map_cons, List.map_cons, List.sum_cons, List.sum_cons, List.length_cons, ← add_assoc, ← add_assoc, add_comm is.length 1]
    exact this

/-- `cos` and `sin` of a rounded multiple of the angle. -/
theorem wave_within (h0 : 0 ≤ u) (h1 : u < 1) (ha : Accurate a u e) {sign angle : ℝ} {coef : ℝ} {f : ℝ → ℝ} {k : ℕ} {y : ℝ} (hf : ∀ x, |f x| ≤ 1)
    (hl : ∀ x x', |f x - f x'| ≤ |x - x'|) (hs : |sign| = 1) (h : Wave a sign angle (coef, f, k) y) {c w x0 : ℝ} (hc : 1 ≤ c) (hx : Within c w x0 coef)
    {L : ℕ} (hk : k ≤ L) : Within (c * (1 + u * (1 + L * |angle|)) * grow u 1) w (x0 * f (sign * k * angle)) y := by
  obtain ⟨x, v, hx', hv, hy⟩ := h
  dsimp only at hx' hv hy
  have g1 : |x - sign * k * angle| ≤ u * (L * |angle|) := by
    refine (ha.op _ _ hx').trans ?_
    rw [abs_mul, abs_mul, hs, one_mul, Nat.abs_cast]
    gcongr
  have g2 : |v - f (sign * k * angle)| ≤ u * (1 + L * |angle|) := by
    have h3 := ha.lib _ _ hv
    have h4 := hl x (sign * k * angle)
    have h5 : u * |f x| ≤ u * 1 := mul_le_mul_of_nonneg_left (hf x) h0
    calc |v - f (sign * k * angle)| = |(v - f x) + (f x - f (sign * k * angle))| := by congr 1; ring
      _ ≤ |v - f x| + |f x - f (sign * k * angle)| := abs_add_le _ _
      _ ≤ u * 1 + u * (L * |angle|) := add_le_add (h3.trans h5) (h4.trans g1)
      _ = _ := by ring
  have g3 : Within (1 + u * (1 + L * |angle|)) 1 (f (sign * k * angle)) v := ⟨hf _, by
    rw [add_sub_cancel_left, mul_one]; exact g2⟩
  have g4 := Within.op h0 h1 (hx.mul g3 hc) (ha.op _ _ hy)
  rwa [mul_one] at g4

theorem Within.ofReal {c w x y : ℝ} (h : Within c w x y) : Within c w (x : ℂ) (y : ℂ) := by
  refine ⟨by rw [Complex.norm_real]; exact h.1, ?_⟩
  rw [← Complex.ofReal_sub, Complex.norm_real]; exact h.2

/-- One entry of the torque array. -/
theorem entry_within (h0 : 0 ≤ u) (h1 : u < 1) (ha : Accurate a u e) {G g c : ℝ} (hg : a.op G g) (hc : Front a g c) {l : ℕ} {m : ℤ} {q q0 Q Q0 n : ℂ}
    {cq wq cQ wQ : ℝ} (hq1 : 1 ≤ cq) (hq : Within cq wq q0 q) (hQ : Within cQ wQ Q0 Q) (h : Entry a c l m q Q n) :
    Within (grow u 11 * (cq * cQ)) (4 * Real.pi * |G| * (|(m : ℝ)| / (2 * l + 1)) * wq * wQ)
      (((-4 * Real.pi * G : ℝ) : ℂ) * Complex.I * ((1 / (2 * l + 1) * m : ℝ) : ℂ) * q0 * Q0) n := by
  obtain ⟨p, hp, hc⟩ := hc
  obtain ⟨lf, o, k, z, hlf, ho, hk, hre, him, hn⟩ := h
  have hpi := Real.pi_pos
  have g1 := grow_one_le h0 h1 1
  have rnd : ∀ x y : ℝ, a.op x y → Within (grow u 1) |x| x y := fun x y hxy => by
    have := Within.op h0 h1 (Within.refl (x := x) (w := |x|) (c := 1) le_rfl le_rfl) (ha.op _ _ hxy)
    rwa [one_mul] at this
  have W1 := Within.op h0 h1 ((rnd _ _ hp).mul (rnd _ _ hg) g1) (ha.op _ _ hc)
  have W2 := Within.op h0 h1 ((rnd _ _ hlf).mul (Within.refl (x := (m : ℝ)) (w := |(m : ℝ)|) (c := 1) le_rfl le_rfl) g1) (ha.op _ _ ho)
  rw [grow_add h1, grow_add h1] at W1
  rw [mul_one, grow_add h1] at W2
  have W3 := Within.op h0 h1 (W1.mul W2 (grow_one_le h0 h1 _)) (ha.op _ _ hk)
  rw [grow_add h1, grow_add h1] at W3
  have WI : Within 1 1 Complex.I Complex.I := Within.refl (by simp) le_rfl
  have W4 := (W3.ofReal.mul WI (grow_one_le h0 h1 _)).mul hq (by rw [mul_one]; exact grow_one_le h0 h1 _)
  have hcop : COp a ((k : ℂ) * Complex.I * q) z := by
    constructor
    · have : ((k : ℂ) * Complex.I * q).re = -k * q.im := by simp
      rw [this]; exact hre
    · have : ((k : ℂ) * Complex.I * q).im = k * q.re := by simp
      rw [this]; exact him
  have W5 := Within.op h0 h1 W4 (cop_err h0 ha hcop)
  have c1 : 1 ≤ grow u 6 * 1 * cq * grow u 1 := by
    have := grow_one_le h0 h1 6
    rw [mul_one]
    exact one_le_mul_of_one_le_of_one_le (one_le_mul_of_one_le_of_one_le this hq1) g1
  have W6 := (W5.mul hQ c1).round (relErr_nonneg h0 h1 4) (cmul_err h0 h1 ha hn)
  have e1 : grow u (1 + 1 + 1 + (1 + 1) + 1) * 1 * cq * grow u 1 * cQ * (1 + relErr u 4) = grow u 11 * (cq * cQ) := by
    have h2 : (1 + relErr u 4) = grow u 4 := rfl
    rw [h2]
    calc _ = (grow u 6 * grow u 1 * grow u 4) * (cq * cQ) := by ring
      _ = _ := by rw [grow_add h1, grow_add h1]
  rw [e1] at W6
  have e2 : |-4 * Real.pi| * |G| * (|1 / (2 * (l : ℝ) + 1)| * |(m : ℝ)|) * 1 * wq * wQ = 4 * Real.pi * |G| * (|(m : ℝ)| / (2 * l + 1)) * wq * wQ := by
    have h2 : |-4 * Real.pi| = 4 * Real.pi := by rw [abs_mul, abs_neg, abs_of_pos hpi]; norm_num
    have h3 : |1 / (2 * (l : ℝ) + 1)| = 1 / (2 * l + 1) := abs_of_pos (by positivity)
    rw [h2, h3]; ring
  rw [e2] at W6
  have e3 : ((-4 * Real.pi * G * (1 / (2 * (l : ℝ) + 1) * m) : ℝ) : ℂ) * Complex.I * q0 * Q0 =
      ((-4 * Real.pi * G : ℝ) : ℂ) * Complex.I * ((1 / (2 * l + 1) * m : ℝ) : ℂ) * q0 * Q0 := by
    push_cast; ring
  rwa [e3] at W6

/-- The pairs (order, which of the two terms) in the order in which the signals are summed. -/
def waves (n : ℕ) : List (ℕ × Bool) := (List.range n).flatMap fun j => [(j + 1, true), (j + 1, false)]

theorem waves_sum (n : ℕ) (f : ℕ × Bool → ℝ) : ((waves n).map f).sum = ∑ k ∈ Finset.Icc 1 n, (f (k, true) + f (k, false)) := by
  induction n with
  | zero => simp [waves]
  | succ n ih =>
    rw [Finset.sum_Icc_succ_top (by omega), ← ih, waves, List.range_succ, List.flatMap_append]
    simp [waves]

theorem waves_length (n : ℕ) : (waves n).length = 2 * n := by
  simp [waves, mul_comm]

theorem waves_mem {n : ℕ} {i : ℕ × Bool} (h : i ∈ waves n) : 1 ≤ i.1 ∧ i.1 ≤ n := by
  rw [waves, List.mem_flatMap] at h
  obtain ⟨j, hj, h⟩ := h
  rw [List.mem_range] at hj
  simp only [List.mem_cons, List.not_mem_nil, or_false] at h
  rcases h with rfl | rfl <;> exact ⟨by simp, by simpa using hj⟩

theorem cos_lip (x y : ℝ) : |Real.cos x - Real.cos y| ≤ |x - y| := by
  have h1 : Real.cos x - Real.cos y = Real.cos x - Real.cos y := rfl
  rw [Real.cos_sub_cos, abs_mul, abs_mul]
  have h2 : |Real.sin ((x + y) / 2)| ≤ 1 := Real.abs_sin_le_one _
  have h3 : |Real.sin ((x - y) / 2)| ≤ |(x - y) / 2| := Real.abs_sin_le_abs
  rw [abs_div, abs_of_pos (by norm_num : (0 : ℝ) < 2)] at h3
  have h4 : |(-2 : ℝ)| = 2 := by norm_num
  rw [h4]
  nlinarith [abs_nonneg (Real.sin ((x - y) / 2)), abs_nonneg (Real.sin ((x + y) / 2))]

theorem sin_lip (x y : ℝ) : |Real.sin x - Real.sin y| ≤ |x - y| := by
  rw [Real.sin_sub_sin, abs_mul, abs_mul]
  have h2 : |Real.cos ((x + y) / 2)| ≤ 1 := Real.abs_cos_le_one _
  have h3 : |Real.sin ((x - y) / 2)| ≤ |(x - y) / 2| := Real.abs_sin_le_abs
  rw [abs_div, abs_of_pos (by norm_num : (0 : ℝ) < 2)] at h3
  have h4 : |(2 : ℝ)| = 2 := by norm_num
  rw [h4]
  nlinarith [abs_nonneg (Real.sin ((x - y) / 2)), abs_nonneg (Real.cos ((x + y) / 2))]

/-- One of the two signals of `torques_at_angle`. -/
theorem signal_within (h0 : 0 ≤ u) (h1 : u < 1) (ha : Accurate a u e) {sign angle : ℝ} (hs : |sign| = 1) {n : ℕ} (co si : ℕ → ℝ) (co0 si0 wt : ℕ → ℝ) {c : ℝ} (hc : 1 ≤ c)
    (hco : ∀ k, 1 ≤ k → k ≤ n → Within c (wt k) (co0 k) (co k)) (hsi : ∀ k, 1 ≤ k → k ≤ n → Within c (wt k) (si0 k) (si k)) {F : ℕ × Bool → ℝ × (ℝ → ℝ) × ℕ}
    (hF : ∀ i, F i = (co i.1, Real.cos, i.1) ∨ F i = (si i.1, Real.sin, i.1)) {ys : List ℝ} {s t w0 x0 : ℝ}
    (hy : List.Forall₂ (Wave a sign angle) ((waves n).map F) ys) (hh : Within c w0 x0 s) (hadd : Adds a.op ys s t) :
    ∃ X : ℕ × Bool → ℝ, (∀ i, (F i = (co i.1, Real.cos, i.1) → X i = co0 i.1 * Real.cos (sign * i.1 * angle)) ∧ (F i = (si i.1, Real.sin, i.1) → X i = si0 i.1 * Real.sin (sign * i.1 * angle))) ∧
      Within (c * (1 + u * (1 + n * |angle|)) * grow u (2 * n + 1)) (w0 + ∑ k ∈ Finset.Icc 1 n, 2 * wt k) (x0 + ∑ k ∈ Finset.Icc 1 n, (X (k, true) + X (k, false))) t := by
  classical
  have hne : Real.cos ≠ Real.sin := fun h => by
    have := congrFun h 0
    simp at this
  set X : ℕ × Bool → ℝ := fun i => if (F i).2.1 = Real.cos then co0 i.1 * Real.cos (sign * i.1 * angle) else si0 i.1 * Real.sin (sign * i.1 * angle) with hX
  refine ⟨X, fun i => ⟨fun h => ?_, fun h => ?_⟩, ?_⟩
  · rw [hX]; dsimp only; rw [h, if_pos rfl]
  · rw [hX]; dsimp only; rw [h, if_neg (Ne.symm hne)]
  · have hk0 : 0 ≤ u * (1 + n * |angle|) := by positivity
    set c' := c * (1 + u * (1 + n * |angle|)) * grow u 1 with hc'
    have g1 := grow_one_le h0 h1 1
    have hcc : c ≤ c' := by
      rw [hc', mul_assoc]
      exact le_mul_of_one_le_right (by linarith) (one_le_mul_of_one_le_of_one_le (by linarith) g1)
    rw [List.forall₂_map_left_iff] at hy
    have hrows := forall₂_imp_mem hy (S := fun i y => Within c' (wt i.1) (X i) y) fun i hi y hiy => by
      obtain ⟨m1, m2⟩ := waves_mem hi
      rcases hF i with h | h
      · have hXi : X i = co0 i.1 * Real.cos (sign * i.1 * angle) := by rw [hX]; dsimp only; rw [h, if_pos rfl]
        rw [h] at hiy
        rw [hXi]
        exact wave_within h0 h1 ha Real.abs_cos_le_one cos_lip hs hiy hc (hco _ m1 m2) m2
      · have hXi : X i = si0 i.1 * Real.sin (sign * i.1 * angle) := by rw [hX]; dsimp only; rw [h, if_neg (Ne.symm hne)]
        rw [h] at hiy
        rw [hXi]
        exact wave_within h0 h1 ha Real.abs_sin_le_one sin_lip hs hiy hc (hsi _ m1 m2) m2
    have := adds_within h0 h1 ha hadd (c := c') (w := fun i : ℕ × Bool => wt i.1) (x := X) (hc.trans hcc) (hh.mono hc hcc le_rfl) hrows
    rw [waves_sum, waves_sum, waves_length, hc', mul_assoc, grow_add h1] at this
    rw [add_comm (2 * n) 1]
    have e2 : ∀ k : ℕ, wt k + wt k = 2 * wt k := fun k => by ring
    simp only [e2] at this
    exact this

end Newt
