import Verif.Props.SolidRounding
import Verif.Proofs.QlmCyl

/-!
# C134: rounding of the moments of cylinders
-/

namespace Newt

open Spec Flt

variable {a : Arith} {u : ℝ} {e : ℕ → ℝ}

/-- A sum of real numbers in any order. -/
theorem sum_within (h0 : 0 ≤ u) (h1 : u < 1) (ha : Accurate a u e) {n : ℕ} {f g : ℕ → ℝ} {w : ℕ → ℝ} {c : ℝ} {s : ℝ}
    (h : ∀ l < n, Within c (w l) (f l) (g l)) (hs : Flt.Sum a.op ((List.range n).map g) s) :
    Within (c * grow u n) (∑ l ∈ Finset.range n, w l) (∑ l ∈ Finset.range n, f l) s := by
  have h2 := sum_err h0 h1 ha hs
  have e1 : ((List.range n).map g).sum = ∑ l ∈ Finset.range n, g l := rfl
  have e2 : (((List.range n).map g).map fun z => |z|).sum = ∑ l ∈ Finset.range n, |g l| := by rw [List.map_map]; rfl
  rw [e1, e2, List.length_map, List.length_range] at h2
  have h3 := Within.finsum (Finset.range n) f g w fun l hl => h l (Finset.mem_range.1 hl)
  refine ⟨h3.1, ?_⟩
  have h4 : ∑ l ∈ Finset.range n, |g l| ≤ c * ∑ l ∈ Finset.range n, w l := by
    rw [Finset.mul_sum]
    exact Finset.sum_le_sum fun l hl => (h l (Finset.mem_range.1 hl)).size
  calc ‖s - ∑ l ∈ Finset.range n, f l‖ = ‖(s - ∑ l ∈ Finset.range n, g l) + (∑ l ∈ Finset.range n, g l - ∑ l ∈ Finset.range n, f l)‖ := by congr 1; ring
    _ ≤ _ := norm_add_le _ _
    _ ≤ relErr u n * (c * ∑ l ∈ Finset.range n, w l) + (c - 1) * ∑ l ∈ Finset.range n, w l :=
        add_le_add (h2.trans (mul_le_mul_of_nonneg_left h4 (relErr_nonneg h0 h1 n))) h3.2
    _ = (c * grow u n - 1) * ∑ l ∈ Finset.range n, w l := by rw [grow]; ring

theorem slkFirst_up (h0 : 0 ≤ u) (h1 : u < 1) (ha : Accurate a u e) {H s s' : ℝ} {n j : ℕ} (hs : UpTo (grow u j) (Qlm.slk0 H n) s) (h : SlkFirst a H n s s') :
    UpTo (grow u (j + 4)) (Qlm.slk0 H (n + 1)) s' := by
  obtain ⟨h', x, y, k1, k2, k3, k4⟩ := h
  have p1 := lib_up h0 h1 ha (up_refl (H ^ 2)) k1
  have p2 := op_up h0 h1 ha (mul_up h0 h1 (up_refl (2 * (n : ℝ) + 1)) p1) k2
  have p3 := op_up h0 h1 ha (div_up h0 h1 p2 (up_refl (4 * (2 * (n : ℝ) + 3)))) k3
  have p4 := op_up h0 h1 ha (mul_up h0 h1 p3 hs) k4
  have e1 : Qlm.slk0 H (n + 1) = (2 * (n : ℝ) + 1) * H ^ 2 / (4 * (2 * (n : ℝ) + 3)) * Qlm.slk0 H n := by
    rw [Qlm.slk0]; push_cast; congr 2 <;> ring
  rw [e1, show j + 4 = 0 + (0 + 1) + 1 + 0 + 1 + j + 1 by ring]
  exact p4

theorem slkNext_up (h0 : 0 ≤ u) (h1 : u < 1) (ha : Accurate a u e) {H R s s' : ℝ} {n k j : ℕ} (hs : UpTo (grow u j) (Qlm.slk H R n k) s) (h : SlkNext a H R n k s s') :
    UpTo (grow u (j + 7)) (Qlm.slk H R n (k + 1)) s' := by
  obtain ⟨x, y, z, r, q, k1, k2, k3, k4, k5, k6⟩ := h
  have hneg : UpTo (grow u j) (-Qlm.slk H R n k) (-s) := by
    obtain ⟨θ, rfl, t1, t2⟩ := hs
    exact ⟨θ, by ring, t1, t2⟩
  have p1 := op_up h0 h1 ha (mul_up h0 h1 hneg (up_refl (2 * (n : ℝ) - 2 * ((k : ℝ) + 1) + 3))) k1
  have p2 := op_up h0 h1 ha (mul_up h0 h1 p1 (up_refl (2 * (n : ℝ) - 2 * ((k : ℝ) + 1) + 2))) k2
  have p3 := op_up h0 h1 ha (div_up h0 h1 p2 (up_refl (((k : ℝ) + 1 + 1) * ((k : ℝ) + 1)))) k3
  have p4 := op_up h0 h1 ha (up_refl (R / H)) k4
  have p4' : UpTo (grow u 2) ((R / H) ^ 2) (r ^ 2) := by rw [sq, sq]; exact mul_up h0 h1 p4 p4
  have p5 := lib_up h0 h1 ha p4' k5
  have p6 := op_up h0 h1 ha (mul_up h0 h1 p3 p5) k6
  have e1 : Qlm.slk H R n (k + 1) = -Qlm.slk H R n k * (2 * (n : ℝ) - 2 * ((k : ℝ) + 1) + 3) * (2 * (n : ℝ) - 2 * ((k : ℝ) + 1) + 2) /
      (((k : ℝ) + 1 + 1) * ((k : ℝ) + 1)) * (R / H) ^ 2 := by
    rw [Qlm.slk]; push_cast; rfl
  rw [e1, show j + 7 = j + 0 + 1 + 0 + 1 + 0 + 1 + (2 + 1) + 1 by ring]
  exact p6

theorem slkTab_up (h0 : 0 ≤ u) (h1 : u < 1) (ha : Accurate a u e) {L : ℕ} {H R : ℝ} {S : ℕ → ℕ → ℝ} (h : SlkTab a L H R S) {n k : ℕ} (hn : 2 * n ≤ L) (hk : k ≤ n) :
    UpTo (grow u (4 * n + 7 * k)) (Qlm.slk H R n k) (S n k) := by
  obtain ⟨s0, s1, s2, -⟩ := h
  induction k with
  | zero =>
    clear hk
    induction n with
    | zero => rw [s0]; simpa [Qlm.slk, Qlm.slk0] using up_refl (1 : ℝ)
    | succ n ih => exact slkFirst_up h0 h1 ha (ih (by omega)) (s1 n hn)
  | succ k ih => exact slkNext_up h0 h1 ha (ih (by omega)) (s2 n k hn (by omega))

theorem cylAbs_nonneg {mass H R : ℝ} (hH : 0 < H) (hR : 0 < R) (l : ℕ) : 0 ≤ cylAbs mass H R l := by
  rw [cylAbs]
  exact mul_nonneg (by positivity) (Finset.sum_nonneg fun k _ => by positivity)

/-- The size of a cylinder is the sum of the absolute values of the program's terms. -/
theorem cylAbs_eq {mass H R : ℝ} (hH : 0 < H) (hR : 0 < R) {l L : ℕ} (hl : l ≤ L) (hpar : l % 2 = 0) : cylAbs mass H R l =
    |Qlm.factor mass * Real.sqrt (2 * l + 1)| * ∑ k ∈ Finset.range (L / 2 + 1), |if k ≤ l / 2 then Qlm.slk H R (l / 2) k else 0| := by
  have e1 : ∑ k ∈ Finset.range (L / 2 + 1), |if k ≤ l / 2 then Qlm.slk H R (l / 2) k else 0| = ∑ k ∈ Finset.range (l / 2 + 1), |Qlm.slk H R (l / 2) k| := by
    symm
    rw [← Finset.sum_subset (s₁ := Finset.range (l / 2 + 1)) (by intro k; simp only [Finset.mem_range]; omega)
      (f := fun k => |if k ≤ l / 2 then Qlm.slk H R (l / 2) k else 0|)]
    · refine Finset.sum_congr rfl fun k hk => ?_
      rw [if_pos (by have := Finset.mem_range.1 hk; omega)]
    · intro k _ hk
      rw [if_neg (by rw [Finset.mem_range] at hk; omega), abs_zero]
  rw [e1, cylAbs, Qlm.factor, abs_mul, abs_mul, abs_of_nonneg (Real.sqrt_nonneg _), abs_of_nonneg (Real.sqrt_nonneg _)]
  congr 1
  refine Finset.sum_congr rfl fun k hk => ?_
  have hk' := Finset.mem_range.1 hk
  obtain ⟨n, rfl⟩ : ∃ n, l = 2 * n := ⟨l / 2, by omega⟩
  rw [show 2 * n / 2 = n by omega] at hk' ⊢
  rw [slk_eq H R hH n k (by omega), abs_div, abs_mul, abs_mul, abs_mul, abs_pow, abs_neg, abs_one, one_pow, one_mul, abs_of_pos (by positivity : 0 < H ^ (2 * n - 2 * k)),
    abs_of_pos (by positivity : 0 < R ^ (2 * k)), abs_of_pos (by positivity : (0 : ℝ) < ((2 * n).factorial : ℝ)), abs_of_pos (by positivity)]

/-- **C134 (cylinders).**  Every entry of the array that `cylinder` returns in floating point arithmetic differs from the moment of the uniform cylinder (an integral) by at most
the growth factor of `8 + 11 (l/2) + L/2` roundings less one times the closed form without subtractions; entries of odd degree or of an order that is not zero are exactly zero. -/
theorem C134_cylinder (h0 : 0 ≤ u) (h1 : u < 1) (ha : Accurate a u e) {L : ℕ} {mass H R : ℝ} (hH : 0 < H) (hR : 0 < R) {q' : Mom L}
    (h : Flt.cylinder a L mass H R (.ok q')) {l : ℕ} {m : ℤ} (hl : l ≤ L) (hm : m.natAbs ≤ l) :
    ‖q'.get l m - uniformMoment mass (prism H (disc R)) l m‖ ≤ relErr u (8 + 11 * (l / 2) + L / 2) * cylAbs mass H R l ∧
      (m ≠ 0 ∨ l % 2 = 1 → q'.get l m = 0) := by
  rw [Flt.cylinder, if_neg (by push Not; exact ⟨hH, hR⟩)] at h
  obtain ⟨pi0, f0, S, v, hp, hf, hS, hv, hq⟩ := h
  have hq' := (Qlm.Res.ok.inj hq)
  have hex := C36_cylinder L mass H R hH hR
  rw [Qlm.cylinder, if_neg (by push Not; exact ⟨hH, hR⟩)] at hex
  have hex' := congrArg (fun q : Mom L => q.get l m) (Qlm.Res.ok.inj hex)
  rw [Mom.get_ofFn _ hl (hm.trans hl), Mom.get_ofFn _ hl (hm.trans hl)] at hex'
  rw [← hex', hq', Mom.get_ofFn _ hl (hm.trans hl)]
  have hN := cylAbs_nonneg (mass := mass) hH hR l
  have f1 := solFactor_upTo h0 h1 ha hp hf
  have hr := relErr_nonneg h0 h1 (8 + 11 * (l / 2) + L / 2)
  by_cases hm0 : m = 0 ∧ l = 0
  · rw [if_pos hm0, if_pos hm0]
    refine ⟨?_, fun hx => by rcases hx with hx | hx <;> omega⟩
    have w := ((f1.within (grow_one_le h0 h1 4)).k h0 h1 (k := 8 + 11 * (l / 2) + L / 2) (by omega) le_rfl).2
    rw [grow, add_sub_cancel_left] at w
    rw [mul_one, ← Complex.ofReal_sub, Complex.norm_real]
    refine w.trans (mul_le_mul_of_nonneg_left ?_ hr)
    rw [hm0.2, cylAbs, Qlm.factor, abs_mul, abs_of_nonneg (Real.sqrt_nonneg _)]
    simp
  · rw [if_neg hm0, if_neg hm0]
    by_cases hm1 : m = 0 ∧ l % 2 = 0
    · rw [if_pos hm1, if_pos hm1]
      refine ⟨?_, fun hx => by rcases hx with hx | hx <;> omega⟩
      obtain ⟨sq, F, s, k1, k2, k3, k4⟩ := hv l hl (by omega) hm1.2
      have p1 := op_up h0 h1 ha (up_refl (Real.sqrt (2 * (l : ℝ) + 1))) k1
      have p2 := op_up h0 h1 ha (mul_up h0 h1 f1 p1) k2
      have p3 := p2.within (grow_one_le h0 h1 _)
      have s1 := sum_within h0 h1 ha (n := L / 2 + 1) (f := fun k => if k ≤ l / 2 then Qlm.slk H R (l / 2) k else 0) (g := S (l / 2))
        (w := fun k => |if k ≤ l / 2 then Qlm.slk H R (l / 2) k else 0|) (c := grow u (11 * (l / 2))) (fun k _ => by
          by_cases hk : k ≤ l / 2
          · rw [if_pos hk]
            exact ((slkTab_up h0 h1 ha hS (by omega) hk).within (grow_one_le h0 h1 _)).k h0 h1 (by omega) le_rfl
          · rw [if_neg hk, hS.2.2.2 _ _ (by omega), abs_zero]
            exact Within.refl (by simp) (grow_one_le h0 h1 _)) k3
      have p4 := Within.op h0 h1 (p3.mul s1 (grow_one_le h0 h1 _)) (ha.op _ _ k4)
      rw [grow_add h1, grow_add h1, grow_add h1, ← cylAbs_eq hH hR hl hm1.2] at p4
      have w := (p4.k h0 h1 (k := 8 + 11 * (l / 2) + L / 2) (by omega) le_rfl).2
      rw [grow, add_sub_cancel_left] at w
      rw [← Complex.ofReal_sub, Complex.norm_real]
      exact w
    · rw [if_neg hm1, if_neg hm1]
      refine ⟨?_, fun _ => rfl⟩
      rw [sub_zero, norm_zero]
      exact mul_nonneg hr hN

/-- **C134 (cylinders, errors).**  A call is rejected exactly if the height or the radius is not positive. -/
theorem C134_cylinder_rejected {L : ℕ} {mass H R : ℝ} {r : Qlm.Res L} (h : Flt.cylinder a L mass H R r) : (r = .valueError ↔ H ≤ 0 ∨ R ≤ 0) ∧ r ≠ .nan := by
  rw [Flt.cylinder] at h
  split_ifs at h with hb
  · subst h
    exact ⟨⟨fun _ => hb, fun _ => rfl⟩, fun h => by injection h⟩
  · obtain ⟨pi0, f0, S, v, -, -, -, -, rfl⟩ := h
    exact ⟨⟨fun h => by injection h, fun h => absurd h hb⟩, fun h => by injection h⟩

/-- **C134 (cones, errors).**  A call is rejected if the height, the radius or the opening is not positive or the opening exceeds `pi` by more than the rounding of `np.pi`, and only if
one of the first three holds or the opening exceeds `pi` less that rounding; no call ends with a division by zero. -/
theorem C134_cone_rejected (h0 : 0 ≤ u) (h1 : u < 1) (ha : Accurate a u e) {L : ℕ} {mass P R phic phih : ℝ} {r : Qlm.Res L} (h : Flt.cone a L mass P R phic phih r) :
    (r = .valueError → P ≤ 0 ∨ R ≤ 0 ∨ phih ≤ 0 ∨ Real.pi * (1 - u) < phih) ∧
    (P ≤ 0 ∨ R ≤ 0 ∨ phih ≤ 0 ∨ Real.pi * (1 + u) < phih → r = .valueError) ∧ r ≠ .nan := by
  obtain ⟨pi0, hp, h⟩ := h
  have hpb := abs_le.1 (ha.op _ _ hp)
  rw [abs_of_pos Real.pi_pos] at hpb
  split_ifs at h with hb
  · subst h
    refine ⟨fun _ => ?_, fun _ => rfl, fun h => by injection h⟩
    rcases hb with h | h | h | h
    · exact Or.inl h
    · exact Or.inr (Or.inl h)
    · exact Or.inr (Or.inr (Or.inl h))
    · exact Or.inr (Or.inr (Or.inr (by linarith)))
  · obtain ⟨f0, f, -, -, rfl⟩ := h
    push Not at hb
    obtain ⟨b1, b2, b3, b4⟩ := hb
    refine ⟨fun h => by injection h, fun h => ?_, fun h => by injection h⟩
    rcases h with h | h | h | h <;> linarith

theorem slkFirst_exists (hT : Total a) (H : ℝ) (n : ℕ) (s : ℝ) : ∃ s', SlkFirst a H n s s' := by
  obtain ⟨h, k1⟩ := hT.lib (H ^ 2)
  obtain ⟨x, k2⟩ := hT.op ((2 * n + 1) * h)
  obtain ⟨y, k3⟩ := hT.op (x / (4 * (2 * n + 3)))
  obtain ⟨z, k4⟩ := hT.op (y * s)
  exact ⟨z, h, x, y, k1, k2, k3, k4⟩

theorem slkNext_exists (hT : Total a) (H R : ℝ) (n k : ℕ) (s : ℝ) : ∃ s', SlkNext a H R n k s s' := by
  obtain ⟨x, k1⟩ := hT.op (-s * (2 * n - 2 * (k + 1) + 3))
  obtain ⟨y, k2⟩ := hT.op (x * (2 * n - 2 * (k + 1) + 2))
  obtain ⟨z, k3⟩ := hT.op (y / ((k + 1 + 1) * (k + 1)))
  obtain ⟨r, k4⟩ := hT.op (R / H)
  obtain ⟨q, k5⟩ := hT.lib (r ^ 2)
  obtain ⟨s', k6⟩ := hT.op (z * q)
  exact ⟨s', x, y, z, r, q, k1, k2, k3, k4, k5, k6⟩



theorem slkTab_exists (hT : Total a) (L : ℕ) (H R : ℝ) : ∃ S, SlkTab a L H R S := by
  choose F hF using fun (n : ℕ) (s : ℝ) => slkFirst_exists hT H n s
  choose G hG using fun (n k : ℕ) (s : ℝ) => slkNext_exists hT H R n k s
  let c : ℕ → ℝ := fun n => Nat.rec 1 (fun n s => F n s) n
  let d : ℕ → ℕ → ℝ := fun n k => Nat.rec (c n) (fun k s => G n k s) k
  refine ⟨fun n k => if n < k then 0 else d n k, ?_, fun n _ => ?_, fun n k _ hk => ?_, fun n k hk => if_pos hk⟩
  · rfl
  · exact hF n (c n)
  · simp only
    rw [if_neg (by omega), if_neg (by omega)]
    exact hG n k (d n k)

/-- **C134 (cylinders, the call returns).** -/
theorem C134_cylinder_returns (hT : Total a) (L : ℕ) (mass : ℝ) {H R : ℝ} (hH : 0 < H) (hR : 0 < R) : ∃ q', Flt.cylinder a L mass H R (.ok q') := by
  obtain ⟨pi0, hp⟩ := hT.op Real.pi
  obtain ⟨i, k1⟩ := hT.op (1 / (4 * pi0))
  obtain ⟨s, k2⟩ := hT.op (Real.sqrt i)
  obtain ⟨f0, k3⟩ := hT.op (mass * s)
  obtain ⟨S, hS⟩ := slkTab_exists hT L H R
  have hc : ∀ l : ℕ, ∃ v, CylCell a L f0 S l v := fun l => by
    obtain ⟨sq, j1⟩ := hT.op (Real.sqrt (2 * l + 1))
    obtain ⟨F, j2⟩ := hT.op (f0 * sq)
    obtain ⟨t, j3⟩ := sum_exists hT.op ((List.range (L / 2 + 1)).map (S (l / 2)))
    obtain ⟨v, j4⟩ := hT.op (F * t)
    exact ⟨v, sq, F, t, j1, j2, j3, j4⟩
  choose v hv using hc
  refine ⟨Mom.ofFn L fun l m => if m = 0 ∧ l = 0 then (f0 : ℂ) else if m = 0 ∧ l % 2 = 0 then (v l : ℂ) else 0, ?_⟩
  rw [Flt.cylinder, if_neg (by push Not; exact ⟨hH, hR⟩)]
  exact ⟨pi0, f0, S, v, hp, ⟨i, s, k1, k2, k3⟩, hS, fun l _ _ _ => hv l, rfl⟩

/-- A cylinder of height 1 and radius 2 in double precision, up to degree 10: thirteen digits. -/
example : ∃ q' : Mom 10, Flt.cylinder ieee53 10 3 1 2 (.ok q') ∧
    (∀ l ≤ 10, ‖q'.get l 0 - uniformMoment 3 (prism 1 (disc 2)) l 0‖ ≤ 1.6e-14 * cylAbs 3 1 2 l) ∧ q'.get 3 0 = 0 ∧ 0 < cylAbs 3 1 2 4 := by
  have hu : (0 : ℝ) ≤ (2 : ℝ)⁻¹ ^ 53 := by positivity
  have hu1 : (2 : ℝ)⁻¹ ^ 53 < 1 := by norm_num
  obtain ⟨q', h⟩ := C134_cylinder_returns ieee53_total 10 3 (H := 1) (R := 2) (by norm_num) (by norm_num)
  refine ⟨q', h, fun l hl => ?_, (C134_cylinder hu hu1 ieee53_accurate (by norm_num) (by norm_num) h (l := 3) (m := 0) (by norm_num) (by norm_num)).2 (Or.inr (by norm_num)), ?_⟩
  · refine (C134_cylinder hu hu1 ieee53_accurate (by norm_num) (by norm_num) h hl (by simp)).1.trans (mul_le_mul_of_nonneg_right ?_ (cylAbs_nonneg (by norm_num) (by norm_num) l))
    exact (rel_double (n := 68) (by omega) (by norm_num)).trans (by norm_num)
  · rw [cylAbs]
    have := Real.pi_pos
    refine mul_pos (by rw [abs_of_pos (by norm_num : (0 : ℝ) < 3)]; positivity) (Finset.sum_pos (fun k _ => by positivity) ⟨0, by simp⟩)

/-- A cone without height, one without radius and one that spans more than the whole circle are rejected in double precision, and so is a cylinder without height. -/
example (r : Qlm.Res 3) (h : Flt.cone ieee53 3 1 0 1 0 1 r ∨ Flt.cone ieee53 3 1 1 0 0 1 r ∨ Flt.cone ieee53 3 1 1 1 0 7 r ∨ Flt.cylinder ieee53 3 1 0 1 r) : r = .valueError := by
  have hu : (0 : ℝ) ≤ (2 : ℝ)⁻¹ ^ 53 := by positivity
  have hu1 : (2 : ℝ)⁻¹ ^ 53 < 1 := by norm_num
  rcases h with h | h | h | h
  · exact (C134_cone_rejected hu hu1 ieee53_accurate h).2.1 (Or.inl le_rfl)
  · exact (C134_cone_rejected hu hu1 ieee53_accurate h).2.1 (Or.inr (Or.inl le_rfl))
  · refine (C134_cone_rejected hu hu1 ieee53_accurate h).2.1 (Or.inr (Or.inr (Or.inr ?_)))
    have h4 := Real.pi_le_four
    have : (2 : ℝ)⁻¹ ^ 53 ≤ 1 / 2 := by norm_num
    nlinarith [Real.pi_pos]
  · exact (C134_cylinder_rejected h).1.2 (Or.inl le_rfl)

end Newt
