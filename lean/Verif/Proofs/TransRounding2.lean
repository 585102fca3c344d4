import Verif.Proofs.TransRounding
import Verif.Proofs.Translations

/-!
# Rounding errors of the translations of moments
-/

namespace Newt

open Spec Flt

variable {a : Arith} {u : ℝ} {e : ℕ → ℝ}

/-- The harmonics of the displacement. -/
theorem disp_harm (h0 : 0 ≤ u) (h1 : u < 1) (ha : Accurate a u e) {d : V3} (hd : d ≠ 0) {r phi theta dd : ℝ} (hdd : PolarAccuracy u dd [⟨1, d⟩])
    (h : Disp a d r phi theta) {l : ℕ} {m : ℤ} (hm : m.natAbs ≤ l) {Y : ℂ} (hY : a.harm m l phi theta Y) :
    ‖Y - sphHarm m l (phiPOf d) (thetaPOf d)‖ ≤ harmErr u dd e l := by
  obtain ⟨hr, hp, ht⟩ := h
  have t : |theta - thetaPOf d| ≤ Real.pi * (dd + u) := theta_err h0 h1 ha (p := ⟨1, d⟩) hd hdd.1 hr ht (hdd.2 _ (by simp))
  have hpi := Real.pi_pos
  have f : |phi - phiPOf d| ≤ 7 * Real.pi * u := by
    have hgp : |arctan2 (d 1) (d 0)| ≤ Real.pi := Complex.abs_arg_le_pi _
    refine (ha.lib _ _ hp).trans ?_
    calc u * |arctan2 (d 1) (d 0)| ≤ u * Real.pi := by gcongr
      _ ≤ 7 * Real.pi * u := by nlinarith [mul_nonneg h0 hpi.le]
  have h2 := sphHarm_lip l m hm phi theta (phiPOf d) (thetaPOf d)
  have h3 := ha.harm _ _ _ _ _ hY
  calc _ = ‖(Y - sphHarm m l phi theta) + (sphHarm m l phi theta - sphHarm m l (phiPOf d) (thetaPOf d))‖ := by congr 1; ring
    _ ≤ ‖Y - sphHarm m l phi theta‖ + ‖sphHarm m l phi theta - sphHarm m l (phiPOf d) (thetaPOf d)‖ := norm_add_le _ _
    _ ≤ e l + harmMax l * (l * (|theta - thetaPOf d| + |phi - phiPOf d|)) := add_le_add h3 h2
    _ ≤ e l + harmMax l * (l * (Real.pi * (dd + u) + 7 * Real.pi * u)) := by
        have := harmMax_nonneg l
        gcongr
    _ = _ := by rw [harmErr]; ring

theorem disp_within (h0 : 0 ≤ u) (h1 : u < 1) (ha : Accurate a u e) {d : V3} (hd : d ≠ 0) {r phi theta dd eps : ℝ} (hdd : PolarAccuracy u dd [⟨1, d⟩])
    (h : Disp a d r phi theta) {N l : ℕ} (hl : l ≤ N) (heps : e l ≤ eps * harmMax l) {m : ℤ} (hm : m.natAbs ≤ l) {Y : ℂ} (hY : a.harm m l phi theta Y) :
    Within (1 + (eps + N * (Real.pi * (dd + 8 * u)))) (harmMax l) (sphHarm m l (phiPOf d) (thetaPOf d)) Y := by
  refine ⟨sphHarm_le l m hm _ _, (disp_harm h0 h1 ha hd hdd h hm hY).trans ?_⟩
  rw [add_sub_cancel_left]
  have hy := harmMax_nonneg l
  have hpi := Real.pi_pos
  have hl' : (l : ℝ) ≤ N := by exact_mod_cast hl
  have hdd0 := hdd.1
  have h2 : (l : ℝ) * (Real.pi * (dd + 8 * u)) ≤ N * (Real.pi * (dd + 8 * u)) := mul_le_mul_of_nonneg_right hl' (by positivity)
  have h3 := mul_le_mul_of_nonneg_left h2 hy
  rw [harmErr]
  nlinarith

/-- The square root of factorials in front. -/
theorem trFac_upTo (h0 : 0 ≤ u) (h1 : u < 1) (ha : Accurate a u e) {x y z f : ℝ} (n1 n2 n3 N : ℤ) (p1 : 0 ≤ n1) (p2 : 0 ≤ n2) (p3 : 0 ≤ n3) (e1 : x = n1 + 1) (e2 : y = n2 + 1)
    (e3 : z = n3 + 1) (N1 : n1 ≤ N) (N2 : n2 ≤ N) (N3 : n3 ≤ N) (h : TrFac a x y z f) :
    UpTo (Real.exp (relErr u 4 * (3 * Real.log (fct N))) * grow u 4) (Real.sqrt (4 * Real.pi * Real.exp (gammaln x - gammaln y - gammaln z))) f := by
  obtain ⟨g1, g2, g3, h, s, v, p, w, a1, a2, a3, a4, a5, a6, a7, a8, a9⟩ := h
  rw [gammaln_fct n1 p1 e1] at a1 ⊢; rw [gammaln_fct n2 p2 e2] at a2 ⊢; rw [gammaln_fct n3 p3 e3] at a4 ⊢
  have L := fun {n : ℤ} {y : ℝ} (h : a.lib (Real.log (fct n)) y) => lib_within h0 h1 ha (log_fct_nonneg n) h
  have w1 := op_within h0 h1 ha ((L a1).sub (L a2)) a3
  have w2 := (op_within h0 h1 ha (w1.subk h0 h1 (L a4) (le_refl 2) (by omega)) a5).2
  have b1 := log_fct_mono N1
  have b2 := log_fct_mono N2
  have b3 := log_fct_mono N3
  have c1 := log_fct_nonneg n1
  have c2 := log_fct_nonneg n2
  have c3 := log_fct_nonneg n3
  have hE : |s - (Real.log (fct n1) - Real.log (fct n2) - Real.log (fct n3))| ≤ relErr u 4 * (3 * Real.log (fct N)) := by
    rw [Real.norm_eq_abs] at w2
    refine w2.trans ?_
    have e1 : grow u (2 + 1) - 1 = relErr u 3 := by rw [grow]; ring
    rw [e1]
    have r1 := relErr_nonneg h0 h1 3
    have r2 := relErr_mono h0 h1 (by omega : 3 ≤ 4)
    exact mul_le_mul r2 (by linarith) (by linarith) (r1.trans r2)
  have hc := one_le_exp' h0 h1 (k := 4) (x := 3 * Real.log (fct N)) (by linarith)
  have g := grow_one_le h0 h1 1
  have u1 := (UpTo.exp hE).rd h0 h1 hc (ha.lib _ _ a6)
  have u2 := (UpTo.refl (x := 4 * Real.pi) (le_refl (1 : ℝ))).rd h0 h1 le_rfl (ha.op _ _ a7)
  rw [one_mul] at u2
  have hc1 := one_le_mul_of_one_le_of_one_le hc g
  have hc2 := one_le_mul_of_one_le_of_one_le g hc1
  have u3 := (u2.mul g hc1 u1).rd h0 h1 hc2 (ha.op _ _ a8)
  have hc3 := one_le_mul_of_one_le_of_one_le hc2 g
  have u4 := (u3.sqrt hc3).rd h0 h1 hc3 (ha.op _ _ a9)
  have e4 : grow u 1 * (Real.exp (relErr u 4 * (3 * Real.log (fct N))) * grow u 1) * grow u 1 * grow u 1 = Real.exp (relErr u 4 * (3 * Real.log (fct N))) * grow u 4 := by
    rw [show 4 = 1 + 1 + 1 + 1 from rfl, ← grow_add h1, ← grow_add h1, ← grow_add h1]; ring
  rwa [e4] at u4

theorem pow_upTo (h0 : 0 ≤ u) (h1 : u < 1) (ha : Accurate a u e) {d : V3} {r rl : ℝ} (hr : Rad a ⟨1, d⟩ r) {n : ℕ} (h : a.lib (r ^ n) rl) :
    UpTo (grow u (3 * n + 1)) (rPOf d ^ n) rl := by
  have u1 := ((UpTo.ofNear h0 h1 (rad_near h0 h1 ha hr)).pow (grow_one_le h0 h1 3) n).rd h0 h1 (one_le_pow₀ (grow_one_le h0 h1 3)) (ha.lib _ _ h)
  have e1 : grow u 3 ^ n * grow u 1 = grow u (3 * n + 1) := by
    rw [← grow_add h1, grow_pow h1 (3 * n), grow_pow h1 3, pow_mul]
  rwa [e1] at u1

/-- One term. -/
theorem trTerm_within (h0 : 0 ≤ u) (h1 : u < 1) (ha : Accurate a u e) {c1 c2 cY cq x fac g c sgn wY wq : ℝ} {Y0 Y q0 q t : ℂ} (k1 : 1 ≤ c1) (k2 : 1 ≤ c2) (kY : 1 ≤ cY)
    (hf : UpTo c1 x fac) (hg : Within c2 |g| g c) (hs : |sgn| = 1) (hY : Within cY wY Y0 Y) (hq : Within cq wq q0 q) (h : TrTerm a fac c sgn Y q t) :
    Within (c1 * c2 * cY * cq * grow u 6) (|x| * |g| * wY * wq) (((x * g * sgn : ℝ) : ℂ) * Y0 * q0) t := by
  obtain ⟨cf, z, a1, a2, a3⟩ := h
  have g1 := grow_one_le h0 h1 1
  have k12 := one_le_mul_of_one_le_of_one_le k1 k2
  have W1 := Within.op h0 h1 ((hf.within k1).mul hg k1) (ha.op _ _ a1)
  have kW := one_le_mul_of_one_le_of_one_le k12 g1
  have W2 : Within (c1 * c2 * grow u 1) (|x| * |g|) (x * g * sgn) (cf * sgn) := by
    refine ⟨?_, ?_⟩
    · rw [norm_mul, Real.norm_eq_abs sgn, hs, mul_one]; exact W1.1
    · rw [← sub_mul, norm_mul, Real.norm_eq_abs sgn, hs, mul_one]; exact W1.2
  have W3 := cscaleC h0 h1 ha kW W2 hY a2
  have W4 := cmulC h0 h1 ha (one_le_mul_of_one_le_of_one_le (one_le_mul_of_one_le_of_one_le kW kY) g1) W3 hq a3
  have e1 : c1 * c2 * grow u 1 * cY * grow u 1 * cq * grow u 4 = c1 * c2 * cY * cq * grow u 6 := by
    rw [show 6 = 1 + 1 + 4 from rfl, ← grow_add h1, ← grow_add h1]; ring
  rwa [e1] at W4

theorem fill_within' {L : ℕ} {c : ℝ} {f g : ℕ → ℤ → ℂ} {w : ℕ → ℤ → ℝ} (hw : ∀ (l : ℕ) (m : ℤ), w l m = w l m.natAbs) {l : ℕ} (hl : l ≤ L)
    (h : ∀ m : ℤ, 0 ≤ m → m ≤ l → Within c (w l m) (f l m) (g l m)) {m : ℤ} (hm : m.natAbs ≤ l) :
    Within c (w l m) ((Mom.ofFn L fun L M => if 0 ≤ M ∧ M ≤ L then f L M else 0).fillNeg.get l m) ((Mom.ofFn L fun L M => if 0 ≤ M ∧ M ≤ L then g L M else 0).fillNeg.get l m) := by
  have eq : ∀ f : ℕ → ℤ → ℂ, (Mom.ofFn L fun L M => if 0 ≤ M ∧ M ≤ L then f L M else 0) = momOfRows L fun l m => f l m := by
    intro f
    rw [momOfRows]
    congr 1
    funext l m
    by_cases h : 0 ≤ m ∧ m ≤ l
    · rw [if_pos h, if_pos h, Int.toNat_of_nonneg h.1]
    · rw [if_neg h, if_neg h]
  rw [eq, eq, get_fill L _ hl hm, get_fill L _ hl hm]
  have h1 := h m.natAbs (by omega) (by omega)
  rw [← hw] at h1
  by_cases h2 : m = 0
  · rw [if_pos h2, if_pos h2]
    subst h2
    exact (h 0 le_rfl (by omega)).re.ofReal
  · rw [if_neg h2, if_neg h2]
    by_cases h3 : 0 ≤ m
    · rw [if_pos h3, if_pos h3]; exact h1
    · rw [if_neg h3, if_neg h3]
      rcases neg_one_pow_eq_or ℂ m.natAbs with h4 | h4
      · rw [h4, mul_one, mul_one]; exact h1.conj
      · rw [h4, mul_neg_one, mul_neg_one]; exact h1.conj.neg

theorem filter_sum {α M : Type} [AddCommMonoid M] (l : List α) (p : α → Prop) [DecidablePred p] (f : α → M) :
    ((l.filter fun x => decide (p x)).map f).sum = (l.map fun x => if p x then f x else 0).sum := by
  induction l with
  | nil => rfl
  | cons x l ih =>
    by_cases h : p x
    · rw [List.filter_cons_of_pos (by simpa using h), List.map_cons, List.sum_cons, List.map_cons, List.sum_cons, ih, if_pos h]
    · rw [List.filter_cons_of_neg (by simpa using h), List.map_cons, List.sum_cons, ih, if_neg h, zero_add]

theorem range_sum' {M : Type} [AddCommMonoid M] (n : ℕ) (g : ℕ → M) : ((List.range n).map g).sum = ∑ j ∈ Finset.range n, g j := rfl

theorem innerIdx_sum {K : Type} [AddCommMonoid K] (L : ℕ) (M : ℤ) (f : ℕ × ℤ → K) :
    ((innerIdx L M).map f).sum = ∑ l ∈ Finset.range (L + 1), ∑ m ∈ Finset.Icc (-(l : ℤ)) l, if |M - m| ≤ (L - l : ℕ) then f (l, m) else 0 := by
  rw [innerIdx, flatMap_sum (M := K), range_sum']
  refine Finset.sum_congr rfl fun l _ => ?_
  rw [List.map_map, filter_sum (M := K), zrange_sum]
  rfl

theorem crossIdx_sum {K : Type} [AddCommMonoid K] (LMax L : ℕ) (M : ℤ) (f : ℕ × ℤ → K) :
    ((crossIdx LMax L M).map f).sum = ∑ l ∈ Finset.range (LMax + 1), ∑ m ∈ Finset.Icc (-(l : ℤ)) l, if |M + m| ≤ (L + l : ℕ) then f (l, m) else 0 := by
  rw [crossIdx, flatMap_sum (M := K), range_sum']
  refine Finset.sum_congr rfl fun l _ => ?_
  rw [List.map_map, filter_sum (M := K), zrange_sum]
  rfl

theorem outerIdx_sum {K : Type} [AddCommMonoid K] {LMax L : ℕ} (hL : L ≤ LMax) (M : ℤ) (f : ℕ × ℤ → K) :
    ((outerIdx LMax L M).map f).sum = ∑ l ∈ Finset.Icc L LMax, ∑ m ∈ Finset.Icc (-(l : ℤ)) l, if |M - m| ≤ (l - L : ℕ) ∧ (l - L : ℕ) ≤ LMax then f (l, m) else 0 := by
  rw [outerIdx, flatMap_sum (M := K), range_sum']
  refine Finset.sum_bij (fun j _ => L + j) ?_ ?_ ?_ ?_
  · intro j hj; rw [Finset.mem_range] at hj; rw [Finset.mem_Icc]; omega
  · intro i _ j _ h; omega
  · intro l hl; rw [Finset.mem_Icc] at hl; exact ⟨l - L, by rw [Finset.mem_range]; omega, by omega⟩
  · intro j _
    rw [List.map_map, filter_sum (M := K), zrange_sum, show L + j - L = j by omega]
    rfl

theorem sum_odd (n : ℕ) : ∑ l ∈ Finset.range n, (2 * l + 1) = n ^ 2 := by
  induction n with
  | zero => rfl
  | succ n ih => rw [Finset.sum_range_succ, ih]; ring

theorem innerIdx_length (L : ℕ) (M : ℤ) : (innerIdx L M).length ≤ (L + 1) ^ 2 := by
  rw [innerIdx, List.length_flatMap, range_sum', ← sum_odd]
  refine Finset.sum_le_sum fun l _ => ?_
  rw [List.length_map]
  refine (List.length_filter_le _ _).trans ?_
  rw [zrange_length]; omega

theorem crossIdx_length (LMax L : ℕ) (M : ℤ) : (crossIdx LMax L M).length ≤ (LMax + 1) ^ 2 := by
  rw [crossIdx, List.length_flatMap, range_sum', ← sum_odd]
  refine Finset.sum_le_sum fun l _ => ?_
  rw [List.length_map]
  refine (List.length_filter_le _ _).trans ?_
  rw [zrange_length]; omega

/-- At most `2n+1` entries of an interval are within `n` of a given one. -/
theorem near_length (M : ℤ) (n : ℕ) (b c : ℤ) : ((zrange b c).filter fun m : ℤ => decide (|M - m| ≤ n)).length ≤ 2 * n + 1 := by
  have e1 : ((zrange b c).filter fun m : ℤ => decide (|M - m| ≤ n)).length = ∑ m ∈ Finset.Icc b c, if |M - m| ≤ n then 1 else 0 := by
    have h := filter_sum (M := ℕ) (zrange b c) (fun m : ℤ => |M - m| ≤ n) (fun _ => 1)
    rw [zrange_sum] at h
    rw [← h]; simp
  rw [e1, ← Finset.card_filter]
  have h2 : (Finset.Icc b c).filter (fun m : ℤ => |M - m| ≤ n) ⊆ Finset.Icc (M - n) (M + n) := by
    intro m hm
    rw [Finset.mem_filter, abs_le] at hm
    rw [Finset.mem_Icc]; omega
  refine (Finset.card_le_card h2).trans ?_
  rw [Int.card_Icc]; omega

theorem outerIdx_length (LMax L : ℕ) (M : ℤ) : (outerIdx LMax L M).length ≤ (LMax + 1) ^ 2 := by
  rw [outerIdx, List.length_flatMap, range_sum', ← sum_odd]
  refine le_trans (Finset.sum_le_sum (g := fun j => 2 * j + 1) fun j _ => ?_) (Finset.sum_le_sum_of_subset (Finset.range_mono (by omega)))
  rw [List.length_map]
  refine le_trans ?_ (near_length M j (-((L + j : ℕ) : ℤ)) (L + j : ℕ))
  refine List.Sublist.length_le (List.monotone_filter_right _ fun m hm => ?_)
  simp only [decide_eq_true_eq] at hm ⊢
  exact hm.1

theorem forall₂_mem {α β : Type} {R S : α → β → Prop} {l : List α} {l' : List β} (h : List.Forall₂ R l l') (hi : ∀ x ∈ l, ∀ y, R x y → S x y) : List.Forall₂ S l l' := by
  induction h with
  | nil => exact List.Forall₂.nil
  | @cons x y l l' hr _ ih =>
    exact List.Forall₂.cons (hi x (by simp) y hr) (ih fun z hz => hi z (by simp [hz]))

theorem innerIdx_mem {L : ℕ} {M : ℤ} {i : ℕ × ℤ} (h : i ∈ innerIdx L M) : i.1 ≤ L ∧ i.2.natAbs ≤ i.1 ∧ |M - i.2| ≤ (L - i.1 : ℕ) := by
  simp only [innerIdx, List.mem_flatMap, List.mem_range, List.mem_map, List.mem_filter, decide_eq_true_eq, zrange] at h
  obtain ⟨l, hl, m, ⟨⟨k, hk, rfl⟩, hm⟩, rfl⟩ := h
  exact ⟨by omega, by dsimp only; omega, hm⟩

theorem crossIdx_mem {LMax L : ℕ} {M : ℤ} {i : ℕ × ℤ} (h : i ∈ crossIdx LMax L M) : i.1 ≤ LMax ∧ i.2.natAbs ≤ i.1 ∧ |M + i.2| ≤ (L + i.1 : ℕ) := by
  simp only [crossIdx, List.mem_flatMap, List.mem_range, List.mem_map, List.mem_filter, decide_eq_true_eq, zrange] at h
  obtain ⟨l, hl, m, ⟨⟨k, hk, rfl⟩, hm⟩, rfl⟩ := h
  exact ⟨by omega, by dsimp only; omega, hm⟩

theorem outerIdx_mem {LMax L : ℕ} {M : ℤ} {i : ℕ × ℤ} (h : i ∈ outerIdx LMax L M) : L ≤ i.1 ∧ i.1 ≤ LMax ∧ i.2.natAbs ≤ i.1 ∧ |M - i.2| ≤ (i.1 - L : ℕ) := by
  simp only [outerIdx, List.mem_flatMap, List.mem_range, List.mem_map, List.mem_filter, decide_eq_true_eq, zrange] at h
  obtain ⟨j, hj, m, ⟨⟨k, hk, rfl⟩, hm⟩, rfl⟩ := h
  exact ⟨by dsimp only; omega, by dsimp only; omega, by dsimp only; omega, by dsimp only; rw [Nat.add_sub_cancel_left]; exact hm.1⟩

/-- The growth factors of one term and of the sum together. -/
theorem tr_total (h0 : 0 ≤ u) (h1 : u < 1) {cY cq dd eps : ℝ} {L N k n : ℕ} (hcY : cY = 1 + (eps + N * (Real.pi * (dd + 8 * u)))) (kY : 1 ≤ cY) (kq : 1 ≤ cq)
    (hk : k + 16 + n ≤ 25 + 6 * L + (L + 1) ^ 2) :
    Real.exp (relErr u 4 * (3 * Real.log (fct (2 * N + 1 : ℕ)))) * grow u k * (Real.exp (relErr u 4 * (6 * Real.log (fct (2 * N + 1 : ℕ)))) * grow u 10) * cY * cq * grow u 6 *
      grow u n ≤ transGrow u dd eps L N * cq := by
  have e1 : fct (2 * N + 1 : ℕ) = (2 * N + 1).factorial := by rw [fct, Int.toNat_natCast]
  rw [e1, transGrow, ← hcY]
  set B := Real.log ((2 * N + 1).factorial)
  have ex : Real.exp (relErr u 4 * (9 * B)) = Real.exp (relErr u 4 * (3 * B)) * Real.exp (relErr u 4 * (6 * B)) := by rw [← Real.exp_add]; congr 1; ring
  have eg : grow u k * grow u 10 * grow u 6 * grow u n = grow u (k + 16 + n) := by
    rw [grow_add h1, grow_add h1, grow_add h1]
  calc _ = Real.exp (relErr u 4 * (3 * B)) * Real.exp (relErr u 4 * (6 * B)) * (grow u k * grow u 10 * grow u 6 * grow u n) * cY * cq := by ring
    _ = Real.exp (relErr u 4 * (9 * B)) * grow u (k + 16 + n) * cY * cq := by rw [ex, eg]
    _ ≤ Real.exp (relErr u 4 * (9 * B)) * grow u (25 + 6 * L + (L + 1) ^ 2) * cY * cq := by
        have := grow_mono h0 h1 hk
        gcongr
    _ = _ := by rw [grow]

/-- The whole sum from its terms. -/
theorem tr_sum (h0 : 0 ≤ u) (h1 : u < 1) (ha : Accurate a u e) {cY cq dd eps : ℝ} {L N : ℕ} {idx : List (ℕ × ℤ)} {ts : List ℂ} {s : ℂ} (hadd : CAdds a ts 0 s)
    (hcY : cY = 1 + (eps + N * (Real.pi * (dd + 8 * u)))) (kY : 1 ≤ cY) (kq : 1 ≤ cq) {w : ℕ × ℤ → ℝ} {x : ℕ × ℤ → ℂ} {k : ℕ} (hk : k + 16 + idx.length ≤ 25 + 6 * L + (L + 1) ^ 2)
    (hts : List.Forall₂ (fun i t => Within (Real.exp (relErr u 4 * (3 * Real.log (fct (2 * N + 1 : ℕ)))) * grow u k *
      (Real.exp (relErr u 4 * (6 * Real.log (fct (2 * N + 1 : ℕ)))) * grow u 10) * cY * cq * grow u 6) (w i) (x i) t) idx ts) :
    Within (transGrow u dd eps L N * cq) ((idx.map w).sum) ((idx.map x).sum) s := by
  have hB := log_fct_nonneg (2 * N + 1 : ℕ)
  have k1 : 1 ≤ Real.exp (relErr u 4 * (3 * Real.log (fct (2 * N + 1 : ℕ)))) * grow u k *
      (Real.exp (relErr u 4 * (6 * Real.log (fct (2 * N + 1 : ℕ)))) * grow u 10) * cY * cq * grow u 6 :=
    one_le_mul_of_one_le_of_one_le (one_le_mul_of_one_le_of_one_le (one_le_mul_of_one_le_of_one_le (one_le_mul_of_one_le_of_one_le
      (one_le_mul_of_one_le_of_one_le (one_le_exp' h0 h1 (by linarith)) (grow_one_le h0 h1 _))
      (one_le_mul_of_one_le_of_one_le (one_le_exp' h0 h1 (by linarith)) (grow_one_le h0 h1 _))) kY) kq) (grow_one_le h0 h1 _)
  have := cadds_within h0 h1 ha hadd (w0 := 0) (x0 := 0) k1 (Within.refl (by simp) k1) hts
  rw [zero_add, zero_add] at this
  exact this.mono (one_le_mul_of_one_le_of_one_le k1 (grow_one_le h0 h1 _)) (tr_total h0 h1 hcY kY kq hk) le_rfl

theorem cY_one_le (h0 : 0 ≤ u) (ha : Accurate a u e) {dd eps : ℝ} {d : V3} (hdd : PolarAccuracy u dd [⟨1, d⟩]) {L N : ℕ} (heps : ∀ l, l ≤ L → e l ≤ eps * harmMax l) :
    1 ≤ 1 + (eps + N * (Real.pi * (dd + 8 * u))) := by
  have he : 0 ≤ eps * harmMax 0 := (ha.nonneg 0).trans (heps 0 (by omega))
  have hpi := Real.pi_pos
  have hy : 0 < harmMax 0 := by rw [harmMax]; positivity
  have h2 : 0 ≤ eps := by by_contra hc; push Not at hc; nlinarith
  have := hdd.1
  have : 0 ≤ (N : ℝ) * (Real.pi * (dd + 8 * u)) := by positivity
  linarith

theorem rP_eq (d : V3) : rPOf d = modulus d := rfl

theorem sqrt_fac (x y z : ℝ) (n1 n2 n3 : ℕ) (e1 : x = n1 + 1) (e2 : y = n2 + 1) (e3 : z = n3 + 1) :
    Real.sqrt (4 * Real.pi * Real.exp (gammaln x - gammaln y - gammaln z)) = Real.sqrt (4 * Real.pi * (n1.factorial / (n2.factorial * n3.factorial))) := by
  rw [Real.exp_sub, Real.exp_sub, exp_gammaln x n1 (by omega) (by rw [e1]; push_cast; ring), exp_gammaln y n2 (by omega) (by rw [e2]; push_cast; ring),
    exp_gammaln z n3 (by omega) (by rw [e3]; push_cast; ring), fct, fct, fct, Int.toNat_natCast, Int.toNat_natCast, Int.toNat_natCast, div_div]

/-! ## Inner moments -/

/-- One entry of the exact translation. -/
noncomputable def trI {LMax : ℕ} (q : Mom LMax) (d : V3) (L : ℕ) (M : ℤ) : ℂ :=
  ∑ l ∈ Finset.range (L + 1), ∑ m ∈ Finset.Icc (-(l : ℤ)) l, if |M - m| ≤ (L - l : ℕ) then
    ((innerFac L l (modulus d) * Newt.cgCoeff (L - l : ℕ) l (M - m) m L M * 1 : ℝ) : ℂ) * (starRingEnd ℂ) (sphHarm (M - m) (L - l) (phiPOf d) (thetaPOf d)) * q.get l m else 0

theorem translate_qlm_fill {LMax : ℕ} (q : Mom LMax) {d : V3} (hd : d ≠ 0) :
    Newt.translate_qlm q d = (Mom.ofFn LMax fun L M => if 0 ≤ M ∧ M ≤ L then trI q d L M else 0).fillNeg := by
  rw [Newt.translate_qlm]
  simp only [if_neg (fun h => hd ((rPOf_eq_zero d).1 h))]
  congr 2
  funext L M
  by_cases h : 0 ≤ M ∧ M ≤ L
  · rw [if_pos h, if_pos h, trI]
    refine Finset.sum_congr rfl fun l hl => Finset.sum_congr rfl fun m _ => ?_
    by_cases hm : |M - m| ≤ ((L - l : ℕ) : ℤ)
    · rw [if_pos hm, if_pos hm, innerFac, rP_eq, mul_one,
        sqrt_fac (2 * (L : ℝ) + 2) ((2 * (L - l) + 2 : ℕ) : ℝ) (2 * (l : ℝ) + 2) (2 * L + 1) (2 * (L - l) + 1) (2 * l + 1) (by push_cast; ring) (by push_cast; ring) (by push_cast; ring)]
    · rw [if_neg hm, if_neg hm]
  · rw [if_neg h, if_neg h]

theorem innerFac_nonneg (L l : ℕ) {d : ℝ} (hd : 0 ≤ d) : 0 ≤ innerFac L l d := mul_nonneg (Real.sqrt_nonneg _) (pow_nonneg hd _)

theorem inner_tr_within (h0 : 0 ≤ u) (h1 : u < 1) (ha : Accurate a u e) {LMax : ℕ} {q q0 : Mom LMax} {wq : ℕ → ℤ → ℝ} {cq : ℝ} (kq : 1 ≤ cq)
    (hq : ∀ (l : ℕ) (m : ℤ), l ≤ LMax → m.natAbs ≤ l → Within cq (wq l m) (q0.get l m) (q.get l m)) {d : V3} (hd : d ≠ 0) {dd eps : ℝ}
    (hdd : PolarAccuracy u dd [⟨1, d⟩]) (heps : ∀ l, l ≤ LMax → e l ≤ eps * harmMax l) {q' : Mom LMax} (h : Flt.translate_qlm a q d q') {l : ℕ} {m : ℤ} (hl : l ≤ LMax)
    (hm : m.natAbs ≤ l) :
    Within (transGrow u dd eps LMax LMax * cq) (grossInner wq (modulus d) l m.natAbs) ((Newt.translate_qlm q0 d).get l m) (q'.get l m) := by
  rcases h with ⟨hr, -⟩ | ⟨r, phi, theta, Y, f, -, hdisp, hY, hf, rfl⟩
  · exact absurd ((rad_zero_iff h0 h1 ha hr).1 rfl) hd
  rw [translate_qlm_fill q0 hd]
  refine fill_within' (w := fun l m => grossInner wq (modulus d) l m.natAbs) (fun l m => by simp) hl (fun M hM0 hM => ?_) hm
  obtain ⟨ts, hts, hadd⟩ := hf l M hl hM0 hM
  have kY := cY_one_le h0 ha hdd (N := LMax) heps
  have hB := log_fct_nonneg (2 * LMax + 1 : ℕ)
  have hd0 := modulus_nonneg d
  have S := tr_sum h0 h1 ha (L := LMax) (N := LMax) (cq := cq) (w := fun i => innerFac l i.1 (modulus d) * |Newt.cgCoeff (l - i.1 : ℕ) i.1 (M - i.2) i.2 l M| * harmMax (l - i.1) * wq i.1 i.2)
    (x := fun i => ((innerFac l i.1 (modulus d) * Newt.cgCoeff (l - i.1 : ℕ) i.1 (M - i.2) i.2 l M * 1 : ℝ) : ℂ) *
      (starRingEnd ℂ) (sphHarm (M - i.2) (l - i.1) (phiPOf d) (thetaPOf d)) * q0.get i.1 i.2) (k := 4 + (3 * LMax + 1) + 1) hadd rfl kY kq
    (by have := (innerIdx_length l M).trans (Nat.pow_le_pow_left (by omega : l + 1 ≤ LMax + 1) 2); omega) (forall₂_mem hts ?_)
  · rw [innerIdx_sum, innerIdx_sum] at S
    have e1 : (∑ k ∈ Finset.range (l + 1), ∑ m ∈ Finset.Icc (-(k : ℤ)) k, if |M - m| ≤ (l - k : ℕ) then
        innerFac l k (modulus d) * |Newt.cgCoeff (l - k : ℕ) k (M - m) m l M| * harmMax (l - k) * wq k m else 0) = grossInner wq (modulus d) l M.natAbs := by
      rw [grossInner, Int.natAbs_of_nonneg hM0]
      refine Finset.sum_congr rfl fun k _ => Finset.sum_congr rfl fun m _ => ?_
      by_cases hm : |M - m| ≤ ((l - k : ℕ) : ℤ)
      · rw [if_pos hm]
      · rw [if_neg hm, cgCoeff_invalid (fun hv => hm hv.1)]; simp
    rw [e1] at S
    exact S
  · rintro ⟨k, m⟩ hi t ⟨f0, rl, fac, c, b1, b2, b3, b4, b5⟩
    obtain ⟨i1, i2, i3⟩ := innerIdx_mem hi
    dsimp only at i1 i2 i3 b1 b2 b3 b4 b5 ⊢
    rw [abs_le] at i3
    have g1 := grow_one_le h0 h1 1
    have E3 := one_le_exp' h0 h1 (k := 4) (x := 3 * Real.log (fct (2 * LMax + 1 : ℕ))) (by linarith)
    have E6 := one_le_exp' h0 h1 (k := 4) (x := 6 * Real.log (fct (2 * LMax + 1 : ℕ))) (by linarith)
    have U1 := trFac_upTo h0 h1 ha (2 * l + 1 : ℕ) (2 * (l - k) + 1 : ℕ) (2 * k + 1 : ℕ) (2 * LMax + 1 : ℕ) (by omega) (by omega) (by omega) (by push_cast; ring) (by push_cast; ring)
      (by push_cast; ring) (by omega) (by omega) (by omega) b1
    have U2 := (pow_upTo h0 h1 ha hdisp.1 b2).mono (grow_one_le h0 h1 _) (grow_mono h0 h1 (by omega : 3 * (l - k) + 1 ≤ 3 * LMax + 1))
    have k4 := one_le_mul_of_one_le_of_one_le E3 (grow_one_le h0 h1 4)
    have kr := grow_one_le h0 h1 (3 * LMax + 1)
    have U3 := (U1.mul k4 kr U2).rd h0 h1 (one_le_mul_of_one_le_of_one_le k4 kr) (ha.op _ _ b3)
    have e4 : Real.exp (relErr u 4 * (3 * Real.log (fct (2 * LMax + 1 : ℕ)))) * grow u 4 * grow u (3 * LMax + 1) * grow u 1 =
        Real.exp (relErr u 4 * (3 * Real.log (fct (2 * LMax + 1 : ℕ)))) * grow u (4 + (3 * LMax + 1) + 1) := by
      rw [← grow_add h1 (4 + (3 * LMax + 1)), ← grow_add h1 4]; ring
    rw [e4] at U3
    rw [sqrt_fac (2 * (l : ℝ) + 2) (2 * ((l - k : ℕ) : ℝ) + 2) (2 * (k : ℝ) + 2) (2 * l + 1) (2 * (l - k) + 1) (2 * k + 1) (by push_cast; ring) (by push_cast; ring) (by push_cast; ring), rP_eq] at U3
    have hcg := cg_stretched_within h0 h1 ha (N := (2 * LMax + 1 : ℕ)) (Or.inl (by omega)) (by omega) b4
    have T := trTerm_within h0 h1 ha (one_le_mul_of_one_le_of_one_le E3 (grow_one_le h0 h1 _)) (one_le_mul_of_one_le_of_one_le E6 (grow_one_le h0 h1 _)) kY U3 hcg abs_one
      (disp_within h0 h1 ha hd hdd hdisp (N := LMax) (by omega) (heps _ (by omega)) (by omega) (hY (l - k) (M - m) (by omega) (by omega))).conj (hq k m (by omega) (by omega)) b5
    have e2 := abs_of_nonneg (innerFac_nonneg l k hd0)
    rw [innerFac] at e2 ⊢
    rw [e2] at T
    exact T

end Newt
