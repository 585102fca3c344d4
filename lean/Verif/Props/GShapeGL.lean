import Verif.Proofs.GShapeGL
import Verif.Props.Qlm
import Verif.Proofs.GlibShapes
import Verif.Proofs.Mpc

/-!
# C72, C73, C74: the Gauss-Legendre point arrays of `newt/gShapeGL.py`

`gl n` stands for `np.polynomial.legendre.leggauss(n)`; the only assumption about it is `Spec.Gauss`
(exactness for polynomials of degree below `2 n`).
-/

namespace Newt

open Spec GLeg Finset

open Classical

/-! ## Concrete rules, used to show that the hypotheses can be met -/

theorem gauss_of_pow (r : Rule) (n : ℕ) (h : ∀ e < 2 * n, ∑ i ∈ range n, r.w i * r.s i ^ e = ∫ x in (-1 : ℝ)..1, x ^ e) :
    Gauss r n := by
  intro p hp
  simp_rw [Polynomial.eval_eq_sum_range' hp]
  rw [intervalIntegral.integral_finset_sum]
  · simp_rw [mul_sum]
    rw [sum_comm]
    refine sum_congr rfl fun e he => ?_
    rw [intervalIntegral.integral_const_mul, ← h e (mem_range.1 he), mul_sum]
    exact sum_congr rfl fun i _ => by ring
  · intro i _
    exact Continuous.intervalIntegrable (by fun_prop) _ _

/-- The one-, two- and three-point rules in closed form. -/
noncomputable def sampleRules (n : ℕ) : Rule :=
  if n = 1 then ⟨fun _ => 0, fun _ => 2⟩
  else if n = 2 then ⟨fun i => if i = 0 then -(1 / Real.sqrt 3) else 1 / Real.sqrt 3, fun _ => 1⟩
  else ⟨fun i => if i = 0 then -Real.sqrt (3 / 5) else if i = 1 then 0 else Real.sqrt (3 / 5),
    fun i => if i = 1 then 8 / 9 else 5 / 9⟩

theorem sample1 : Gauss (sampleRules 1) 1 := by
  refine gauss_of_pow _ _ fun e he => ?_
  interval_cases e <;> norm_num [sampleRules, integral_pow]

theorem sample2 : Gauss (sampleRules 2) 2 := by
  refine gauss_of_pow _ _ fun e he => ?_
  have h3 : (1 / Real.sqrt 3) ^ 2 = 1 / 3 := by rw [div_pow, Real.sq_sqrt (by norm_num)]; norm_num
  rw [integral_pow]
  set s := 1 / Real.sqrt 3 with hs
  have e2 : ∑ i ∈ range 2, (sampleRules 2).w i * (sampleRules 2).s i ^ e = (-s) ^ e + s ^ e := by
    simp only [sampleRules, sum_range_succ, sum_range_zero]
    norm_num
    simp [hs]
  rw [e2]
  interval_cases e
  · norm_num
  · norm_num
  · norm_num; rw [h3]; norm_num
  · norm_num; ring

theorem sample3 : Gauss (sampleRules 3) 3 := by
  refine gauss_of_pow _ _ fun e he => ?_
  have h3 : Real.sqrt (3 / 5) ^ 2 = 3 / 5 := Real.sq_sqrt (by norm_num)
  rw [integral_pow]
  set s := Real.sqrt (3 / 5) with hs
  have e2 : ∑ i ∈ range 3, (sampleRules 3).w i * (sampleRules 3).s i ^ e
      = 5 / 9 * (-s) ^ e + 8 / 9 * 0 ^ e + 5 / 9 * s ^ e := by
    simp only [sampleRules, sum_range_succ, sum_range_zero]
    norm_num
    simp [hs]
  rw [e2]
  have h4 : s ^ 4 = 9 / 25 := by rw [show s ^ 4 = (s ^ 2) ^ 2 by ring, h3]; norm_num
  interval_cases e
  · norm_num
  · norm_num
  · norm_num; rw [h3]; norm_num
  · norm_num; ring
  · norm_num; rw [h4]; norm_num
  · norm_num; ring

/-! ## C72: the brick -/

theorem length_rows (nx ny nz : ℕ) (f : ℕ → ℕ → ℕ → Pt) : (rows nx ny nz f).length = nx * ny * nz := by
  simp [rows, List.length_flatMap]; ring

/-- The Gauss-Legendre brick has the requested mass, its points lie strictly inside the brick, its
masses are positive, and its inner moments of every degree below twice the number of points per axis
are exactly those of the uniform brick. -/
theorem C72_rectangle (gl : ℕ → Rule) (mass x y z : ℝ) (hx : 0 < x) (hy : 0 < y) (hz : 0 < z) (dx dy dz : ℕ)
    (nx : 1 ≤ dx) (ny : 1 ≤ dy) (nz : 1 ≤ dz)
    (gx : Gauss (gl dx) dx) (gy : Gauss (gl dy) dy) (gz : Gauss (gl dz) dz) :
    ∃ A, GLeg.rectangle gl mass x y z dx dy dz = .ok A ∧ A.length = dx * dy * dz ∧ totalMass A = mass ∧
      (∀ p ∈ A, |p.pos 0| < x / 2 ∧ |p.pos 1| < y / 2 ∧ |p.pos 2| < z / 2) ∧
      (0 < mass → ∀ p ∈ A, 0 < p.mass) ∧
      ∀ (l : ℕ) (m : ℤ), m.natAbs ≤ l → l < 2 * dx → l < 2 * dy → l < 2 * dz →
        innerMoment A l m = uniformMoment mass (prism z (Spec.rectangle x y)) l m := by
  rw [GLeg.rectangle, if_neg (by omega)]
  have hmom : ∀ e a b, e < 2 * dz → a < 2 * dx → b < 2 * dy →
      momA (rows dx dy dz fun k l m =>
        ⟨mass / 8 * ((gl dx).w m * (gl dy).w l * (gl dz).w k),
          ![(gl dx).s m * x / 2, (gl dy).s l * y / 2, (gl dz).s k * z / 2]⟩) e a b
        = mass / (x * y * z) * Ach.mon3 (boxS x y z) e a b := by
    intro e a b he ha hb
    rw [mon3_box, momA, rows_sum]
    have := gauss_scaled gz e he z hz
    have := gauss_scaled gx a ha x hx
    have := gauss_scaled gy b hb y hy
    have key : ∑ k ∈ range dz, ∑ l ∈ range dy, ∑ m ∈ range dx, mass / 8 * ((gl dx).w m * (gl dy).w l * (gl dz).w k)
          * (((gl dz).s k * z / 2) ^ e * (((gl dx).s m * x / 2) ^ a * ((gl dy).s l * y / 2) ^ b))
        = mass / 8 * ((∑ k ∈ range dz, (gl dz).w k * ((gl dz).s k * z / 2) ^ e)
          * ((∑ l ∈ range dy, (gl dy).w l * ((gl dy).s l * y / 2) ^ b)
            * ∑ m ∈ range dx, (gl dx).w m * ((gl dx).s m * x / 2) ^ a)) := by
      rw [sum_mul_sum, sum_mul_sum, mul_sum]
      refine sum_congr rfl fun k _ => ?_
      rw [mul_sum]
      refine sum_congr rfl fun l _ => ?_
      rw [mul_sum, mul_sum]
      exact sum_congr rfl fun m _ => by ring
    have lhs : ∑ k ∈ range dz, ∑ l ∈ range dy, ∑ m ∈ range dx, mass / 8 * ((gl dx).w m * (gl dy).w l * (gl dz).w k)
          * ((![(gl dx).s m * x / 2, (gl dy).s l * y / 2, (gl dz).s k * z / 2] 2) ^ e
            * ((![(gl dx).s m * x / 2, (gl dy).s l * y / 2, (gl dz).s k * z / 2] 0) ^ a
              * (![(gl dx).s m * x / 2, (gl dy).s l * y / 2, (gl dz).s k * z / 2] 1) ^ b))
        = ∑ k ∈ range dz, ∑ l ∈ range dy, ∑ m ∈ range dx, mass / 8 * ((gl dx).w m * (gl dy).w l * (gl dz).w k)
          * (((gl dz).s k * z / 2) ^ e * (((gl dx).s m * x / 2) ^ a * ((gl dy).s l * y / 2) ^ b)) := by
      simp only [Matrix.cons_val_zero, Matrix.cons_val_one, Matrix.cons_val]
    refine lhs.trans (key.trans ?_)
    rw [gauss_scaled gz e he z hz, gauss_scaled gx a ha x hx, gauss_scaled gy b hb y hy]
    field_simp
    try ring
  have hvol : (MeasureTheory.volume (prism z (Spec.rectangle x y))).toReal = z * (x * y) := by
    rw [prism_vol z hz, area_rect x y hx hy]
  refine ⟨_, rfl, length_rows _ _ _ _, ?_, ?_, ?_, ?_⟩
  · rw [← momA_zero, hmom 0 0 0 (by omega) (by omega) (by omega), mon3_box]
    have h1 : ∀ a : ℝ, 0 < a → ∫ s in Set.Icc (-(a / 2)) (a / 2), s ^ 0 = a := by
      intro a ha
      simp [MeasureTheory.Measure.real, Real.volume_Icc]
      linarith
    rw [h1 x hx, h1 y hy, h1 z hz]
    field_simp
  · intro p hp
    obtain ⟨k, hk, l, hl, m, hm, rfl⟩ := mem_rows.1 hp
    have aux : ∀ s a : ℝ, |s| < 1 → 0 < a → |s * a / 2| < a / 2 := by
      intro s a hs ha
      rw [mul_div_assoc, abs_mul, abs_of_pos (by positivity : 0 < a / 2)]
      exact mul_lt_of_lt_one_left (by positivity) hs
    exact ⟨aux _ _ (node_lt gx m hm) hx, aux _ _ (node_lt gy l hl) hy, aux _ _ (node_lt gz k hk) hz⟩
  · intro hmass p hp
    obtain ⟨k, hk, l, hl, m, hm, rfl⟩ := mem_rows.1 hp
    have := weight_pos gx m hm
    have := weight_pos gy l hl
    have := weight_pos gz k hk
    dsimp only
    positivity
  · have main : ∀ l m : ℕ, m ≤ l → l < 2 * dx → l < 2 * dy → l < 2 * dz → innerMoment (rows dx dy dz fun k l m =>
        ⟨mass / 8 * ((gl dx).w m * (gl dy).w l * (gl dz).w k),
          ![(gl dx).s m * x / 2, (gl dy).s l * y / 2, (gl dz).s k * z / 2]⟩) l m
          = uniformMoment mass (prism z (Spec.rectangle x y)) l m := by
      intro l m hm h1 h2 h3
      rw [moment_of_monomials _ (mass / (x * y * z)) (boxS x y z) (boxS_compact x y z) l
        (fun e a b h => hmom e a b (by omega) (by omega) (by omega)) m hm, boxS_eq, uniformMoment, hvol,
        show z * (x * y) = x * y * z by ring]
    intro l m hm h1 h2 h3
    obtain ⟨k, rfl | rfl⟩ := Int.eq_nat_or_neg m
    · exact main l k (by omega) h1 h2 h3
    · rw [innerMoment_neg, uniformMoment_neg, main l k (by omega) h1 h2 h3]

/-- The point-mass brick and the closed-form moments of `qlm.rect_prism` agree in every cell of degree
below twice the number of points per axis. -/
theorem C72_agrees_with_rect_prism (gl : ℕ → Rule) (L : ℕ) (mass x y z : ℝ) (hx : 0 < x) (hy : 0 < y) (hz : 0 < z)
    (n : ℕ) (hn : L < 2 * n) (g : Gauss (gl n) n) :
    ∃ A q, GLeg.rectangle gl mass x y z n n n = .ok A ∧ Qlm.rectPrism L mass z x y 0 = .ok q ∧
      ∀ (l : ℕ) (m : ℤ), l ≤ L → m.natAbs ≤ l → innerMoment A l m = q.get l m := by
  obtain ⟨A, hA, -, -, -, -, h⟩ := C72_rectangle gl mass x y z hx hy hz n n n (by omega) (by omega) (by omega) g g g
  refine ⟨A, _, hA, C36_rect_prism L mass z x y 0 hz hx hy, fun l m hl hm => ?_⟩
  rw [h l m hm (by omega) (by omega) (by omega), Multi.rotated_zero, Mom.get_ofFn _ hl (by omega)]

/-- Without any point along some axis the call fails. -/
theorem C72_refuses (gl : ℕ → Rule) (mass x y z : ℝ) (dx dy dz : ℕ) (h : dx = 0 ∨ dy = 0 ∨ dz = 0) :
    GLeg.rectangle gl mass x y z dx dy dz = .valueError := by rw [GLeg.rectangle, if_pos h]

example : ∃ A, GLeg.rectangle sampleRules 5 1 2 3 2 3 1 = .ok A ∧ A.length = 6 ∧ totalMass A = 5 := by
  obtain ⟨A, h1, h2, h3, -⟩ := C72_rectangle sampleRules 5 1 2 3 (by norm_num) (by norm_num) (by norm_num) 2 3 1
    (by norm_num) (by norm_num) (by norm_num) sample2 sample3 sample1
  exact ⟨A, h1, h2, h3⟩

example : ∃ A q, GLeg.rectangle sampleRules 5 1 2 4 3 3 3 = .ok A ∧ Qlm.rectPrism 5 5 4 1 2 0 = .ok q ∧
    ∀ (l : ℕ) (m : ℤ), l ≤ 5 → m.natAbs ≤ l → innerMoment A l m = q.get l m :=
  C72_agrees_with_rect_prism sampleRules 5 5 1 2 4 (by norm_num) (by norm_num) (by norm_num) 3 (by norm_num) sample3

/-! ## C73: the masses of the other generators -/

theorem total_rescaled {mass : ℝ} {K B : PtArray} (h : K ≠ [] ∧ (K.map Pt.mass).sum ≠ 0 ∧
    B = K.map fun p => ⟨p.mass * (mass / (K.map Pt.mass).sum), p.pos⟩) : totalMass B = mass := by
  obtain ⟨-, h2, rfl⟩ := h
  rw [total_scaled, totalMass]
  field_simp

theorem C73_sphere (gl : ℕ → Rule) (mass r : ℝ) (dd : ℕ) (A : PtArray) (h : GLeg.sphere gl mass r dd = .ok A) :
    totalMass A = mass := by
  rw [GLeg.sphere] at h; split_ifs at h; exact total_rescaled (rescale1_ok h)

theorem C73_annulus (gl : ℕ → Rule) (mass iR oR t : ℝ) (dd dz : ℕ) (A : PtArray)
    (h : GLeg.annulus gl mass iR oR t dd dz = .ok A) : totalMass A = mass := by
  rw [GLeg.annulus] at h; split_ifs at h; exact total_rescaled (rescale1_ok h)

theorem C73_cone (gl : ℕ → Rule) (mass R H : ℝ) (dd dz : ℕ) (A : PtArray)
    (h : GLeg.cone gl mass R H dd dz = .ok A) : totalMass A = mass := by
  rw [GLeg.cone] at h; simp only at h; split_ifs at h; exact total_rescaled (rescale1_ok h)

theorem C73_wedge (gl : ℕ → Rule) (mass iR oR t theta : ℝ) (dd dz : ℕ) (A : PtArray)
    (h : GLeg.wedge gl mass iR oR t theta dd dz = .ok A) (hA : A ≠ []) : totalMass A = mass := by
  unfold GLeg.wedge at h
  extract_lets at h
  split_ifs at h <;> exact total_rescaled (rescale_ok h hA)

theorem C73_tri_prism (gl : ℕ → Rule) (mass d y1 y2 t : ℝ) (dx dy dz : ℕ) (A : PtArray)
    (h : GLeg.triPrism gl mass d y1 y2 t dx dy dz = .ok A) : totalMass A = mass := by
  rw [GLeg.triPrism] at h; simp only at h; split_ifs at h; exact total_rescaled (rescale1_ok h)

/-! ## C74: where the points are -/

/-- Nodes below the root mean square exist. -/
theorem node_inner {g : Rule} {n : ℕ} (hg : Gauss g n) (hn : 1 ≤ n) : ∃ i < n, 3 * g.s i ^ 2 ≤ 1 := by
  by_contra hc
  push Not at hc
  rcases Nat.lt_or_ge n 2 with h | h
  · obtain rfl : n = 1 := by omega
    have h1 := gauss_pow hg 1 (by norm_num)
    have h0 := gauss_one hg (by norm_num)
    rw [integral_pow] at h1
    norm_num at h1 h0
    have := hc 0 (by norm_num)
    rcases h1 with h1 | h1
    · linarith
    · rw [h1] at this; norm_num at this
  · have h2 := gauss_pow hg 2 (by omega)
    have h0 := gauss_one hg (by omega)
    rw [integral_pow] at h2
    norm_num at h2
    have h3 : ∑ i ∈ range n, g.w i * (1 / 3) < ∑ i ∈ range n, g.w i * g.s i ^ 2 := by
      refine sum_lt_sum_of_nonempty ⟨0, mem_range.2 (by omega)⟩ fun i hi => ?_
      have := hc i (mem_range.1 hi)
      exact mul_lt_mul_of_pos_left (by linarith) (weight_pos hg i (mem_range.1 hi))
    rw [← sum_mul, h0, h2] at h3
    norm_num at h3

/-- The Gauss-Legendre sphere always has points, of positive mass, inside the ball, and no moment of
degree 1, 2 or 3: up to that degree it attracts like a point. -/
theorem C74_sphere (gl : ℕ → Rule) (mass r : ℝ) (dd : ℕ) (hm : 0 < mass) (hr : 0 < r) (hd : 1 ≤ dd)
    (g : Gauss (gl dd) dd) :
    ∃ A, GLeg.sphere gl mass r dd = .ok A ∧ A ≠ [] ∧ totalMass A = mass ∧ Inside A (ball r) ∧ (∀ p ∈ A, 0 < p.mass) ∧
      ∀ (l : ℕ) (m : ℤ), 1 ≤ l → l ≤ 3 → m.natAbs ≤ l → innerMoment A l m = 0 := by
  have hd4 : 4 / 3 * Real.pi * r ^ 3 ≠ 0 := by positivity
  set q : ℝ := mass / (4 / 3 * Real.pi * r ^ 3) * r ^ 3 with hq
  have hqp : 0 < q := by positivity
  set f : ℕ → ℕ → ℕ → Pt := fun k l m => ⟨(gl dd).w m * (gl dd).w l * (gl dd).w k * q,
    ![(gl dd).s m * r, (gl dd).s l * r, (gl dd).s k * r]⟩ with hf
  set P : Pt → Prop := fun p => p.pos 0 ^ 2 + p.pos 1 ^ 2 + p.pos 2 ^ 2 ≤ r ^ 2 with hP
  set K := (rows dd dd dd f).filter fun p => decide (P p) with hK
  have hpos : ∀ p ∈ K, 0 < p.mass := by
    intro p hp
    obtain ⟨k, hk, l, hl, m, hm', rfl⟩ := mem_rows.1 (List.mem_filter.1 hp).1
    have := weight_pos g m hm'
    have := weight_pos g l hl
    have := weight_pos g k hk
    simp only [hf]
    positivity
  have hne : K ≠ [] := by
    obtain ⟨i, hi, hs⟩ := node_inner g hd
    apply List.ne_nil_of_mem (a := f i i i)
    rw [hK, List.mem_filter]
    refine ⟨mem_rows.2 ⟨i, hi, i, hi, i, hi, rfl⟩, ?_⟩
    simp only [hP, hf, decide_eq_true_eq, Matrix.cons_val_zero, Matrix.cons_val_one, Matrix.cons_val]
    nlinarith [sq_nonneg r]
  have hsum := sum_pos_of_mem K hne hpos
  have hE : GLeg.sphere gl mass r dd = .ok (K.map fun p => ⟨p.mass * (mass / (K.map Pt.mass).sum), p.pos⟩) := by
    rw [GLeg.sphere, if_neg (by omega), if_neg hd4]
    exact rescale1_eq mass K hne hsum.ne'
  set c := mass / (K.map Pt.mass).sum with hc
  have hcp : 0 < c := by positivity
  have hgrid : IsGrid (gl dd) q 0 r r r f := by intro k l m; simp [hf]
  have hzo : ∀ e i j, Odd e → momA K e i j = 0 := fun e i j he =>
    momA_zodd g hgrid (by intro mm mm' x y z; simp [hP]) e i j he
  have hyo : ∀ e i j, Odd j → momA K e i j = 0 := fun e i j he =>
    momA_yodd g hgrid (by intro mm mm' x y z; simp [hP]) e i j he
  have hxo : ∀ e i j, Odd i → momA K e i j = 0 := fun e i j he =>
    momA_xodd g hgrid (by intro mm mm' x y z; simp [hP]) e i j he
  have hxy : momA K 0 2 0 = momA K 0 0 2 := by
    rw [hK, momA_filter, momA_filter]
    refine sum_congr rfl fun k _ => ?_
    rw [sum_comm]
    refine sum_congr rfl fun l _ => sum_congr rfl fun m _ => ?_
    simp only [hP, hf, Matrix.cons_val_zero, Matrix.cons_val_one, Matrix.cons_val, pow_zero, mul_one, one_mul,
      add_comm (((gl dd).s m * r) ^ 2)]
    split_ifs <;> ring
  have hxz : momA K 0 2 0 = momA K 2 0 0 := by
    rw [hK, momA_filter', momA_filter']
    refine sum_congr rfl fun k _ => ?_
    rw [sum_comm]
    refine sum_congr rfl fun l _ => sum_congr rfl fun m _ => ?_
    simp only [hP, hf, Matrix.cons_val_zero, Matrix.cons_val_one, Matrix.cons_val, pow_zero, mul_one, one_mul]
    rw [show ((gl dd).s m * r) ^ 2 + ((gl dd).s k * r) ^ 2 + ((gl dd).s l * r) ^ 2
      = ((gl dd).s l * r) ^ 2 + ((gl dd).s k * r) ^ 2 + ((gl dd).s m * r) ^ 2 by ring]
    split_ifs <;> ring
  refine ⟨_, hE, by simpa using hne, C73_sphere gl mass r dd _ hE, ?_, ?_, ?_⟩
  · intro p hp
    obtain ⟨p0, hp0, rfl⟩ := List.mem_map.1 hp
    have := (List.mem_filter.1 hp0).2
    simp only [hP, decide_eq_true_eq] at this
    simp only [ball, Set.mem_setOf_eq, modulus]
    exact Real.sqrt_le_iff.2 ⟨hr.le, by linarith⟩
  · intro p hp
    obtain ⟨p0, hp0, rfl⟩ := List.mem_map.1 hp
    have := hpos p0 hp0
    dsimp only
    positivity
  · have main : ∀ l m : ℕ, 1 ≤ l → l ≤ 3 → m ≤ l →
        innerMoment (K.map fun p => ⟨p.mass * c, p.pos⟩) l m = 0 := by
      intro l m h1 h3 hml
      rw [inner_expand _ l m hml]
      have o1 : Odd 1 := by decide
      have o3 : Odd 3 := by decide
      interval_cases l <;> interval_cases m <;>
        simp only [Nat.reduceSub, Nat.reduceDiv, Nat.reduceAdd, Nat.reduceMul, sum_range_succ, sum_range_zero, zero_add,
          momA_scaled, hzo 1 _ _ o1, hzo 3 _ _ o3, hyo _ _ 1 o1, hyo _ _ 3 o3, hxo _ 1 _ o1, hxo _ 3 _ o3, ← hxz, ← hxy,
          rc, Nat.sub_zero, Nat.sub_self, mul_zero, add_zero] <;>
        norm_num [Nat.factorial, Nat.choose, Complex.I_sq] <;> try (ring_nf; try simp)
    intro l m h1 h3 hml
    obtain ⟨k, rfl | rfl⟩ := Int.eq_nat_or_neg m
    · exact main l k h1 h3 (by omega)
    · rw [innerMoment_neg, main l k h1 h3 (by omega)]; simp

/-- The points of an annulus array lie between the two cylinders and are balanced about the origin, but
they fill the heights `|z| < t`: with two or more points per axis the array is not inside the ring of
thickness `t`, and its spread in height is that of a ring of thickness `2 t`. -/
theorem C74_annulus (gl : ℕ → Rule) (mass iR oR t : ℝ) (ht : 0 < t) (dd : ℕ) (g : Gauss (gl dd) dd) (A : PtArray)
    (h : GLeg.annulus gl mass iR oR t dd dd = .ok A) :
    (∀ p ∈ A, iR ^ 2 ≤ p.pos 0 ^ 2 + p.pos 1 ^ 2 ∧ p.pos 0 ^ 2 + p.pos 1 ^ 2 ≤ oR ^ 2 ∧ |p.pos 2| < t) ∧
    (∀ i, firstMoment A i = 0) ∧
    (2 ≤ dd → ¬ Inside A (Spec.ring iR oR t) ∧
      (A.map fun p => p.mass * p.pos 2 ^ 2).sum = mass * ((2 * t) ^ 2 / 12)) := by
  have htot := C73_annulus gl mass iR oR t dd dd A h
  rw [GLeg.annulus] at h
  split_ifs at h with h1 h2
  set f : ℕ → ℕ → ℕ → Pt := fun k l m => ⟨(gl dd).w m * (gl dd).w l * (gl dd).w k,
    ![(gl dd).s m * oR, (gl dd).s l * oR, (gl dd).s k * t]⟩ with hf
  set P : Pt → Prop := fun p => p.pos 0 ^ 2 + p.pos 1 ^ 2 ≥ iR ^ 2 ∧ p.pos 0 ^ 2 + p.pos 1 ^ 2 ≤ oR ^ 2 with hP
  obtain ⟨hK, hs, hA⟩ := rescale1_ok h
  set K := (rows dd dd dd f).filter fun p => decide (P p) with hKd
  set c := mass / (K.map Pt.mass).sum with hc
  have hgrid : IsGrid (gl dd) 1 0 oR oR t f := by intro k l m; simp [hf]
  have hx : momA A 0 1 0 = 0 := by
    have hK0 : momA K 0 1 0 = 0 := momA_xodd (P := P) g hgrid (by intro mm mm' x y z; simp [hP]) _ _ _ (by decide)
    rw [hA, momA_scaled, hK0, zero_mul]
  have hy : momA A 0 0 1 = 0 := by
    have hK0 : momA K 0 0 1 = 0 := momA_yodd (P := P) g hgrid (by intro mm mm' x y z; simp [hP]) _ _ _ (by decide)
    rw [hA, momA_scaled, hK0, zero_mul]
  have hz : momA A 1 0 0 = 0 := by
    have hK0 : momA K 1 0 0 = 0 := momA_zodd (P := P) g hgrid (by intro mm mm' x y z; simp [hP]) _ _ _ (by decide)
    rw [hA, momA_scaled, hK0, zero_mul]
  obtain ⟨f0, f1, f2⟩ := first_momA A
  refine ⟨?_, ?_, fun hn => ⟨?_, ?_⟩⟩
  · intro p hp
    rw [hA] at hp
    obtain ⟨p0, hp0, rfl⟩ := List.mem_map.1 hp
    have h3 := (List.mem_filter.1 hp0).2
    simp only [hP, decide_eq_true_eq] at h3
    refine ⟨h3.1, h3.2, ?_⟩
    obtain ⟨k, hk, l, hl, m, hm', rfl⟩ := mem_rows.1 (List.mem_filter.1 hp0).1
    show |(gl dd).s k * t| < t
    rw [abs_mul, abs_of_pos ht]
    exact mul_lt_of_lt_one_left ht (node_lt g k hk)
  · intro i
    fin_cases i
    · exact f0.trans hx
    · exact f1.trans hy
    · exact f2.trans hz
  · intro hin
    obtain ⟨p0, hp0⟩ := List.exists_mem_of_ne_nil K hK
    have h3 := (List.mem_filter.1 hp0).2
    obtain ⟨k, hk, l, hl, m, hm', rfl⟩ := mem_rows.1 (List.mem_filter.1 hp0).1
    obtain ⟨i, hi, hsi⟩ := node_outer g hn
    have hmem : f i l m ∈ K := by
      rw [hKd, List.mem_filter]
      exact ⟨mem_rows.2 ⟨i, hi, l, hl, m, hm', rfl⟩, by simpa [hP, hf] using h3⟩
    have := hin ⟨(f i l m).mass * c, (f i l m).pos⟩ (by rw [hA]; exact List.mem_map.2 ⟨_, hmem, rfl⟩)
    have h4 := this.2.2
    change |(gl dd).s i * t| ≤ t / 2 at h4
    rw [abs_mul, abs_of_pos ht] at h4
    nlinarith
  · have h5 : (A.map fun p => p.mass * p.pos 2 ^ 2).sum = momA A 2 0 0 := by simp [momA]
    have hK0 : momA K 2 0 0 = t ^ 2 / 3 * momA K 0 0 0 :=
      momA_zz (P := P) g hn hgrid (by intro mm mm' x y z z'; simp [hP])
    rw [h5, hA, momA_scaled, hK0, mul_assoc, ← momA_scaled, ← hA,
      momA_zero, htot]
    ring

/-- The cone array is a double cone: tip at the origin, and every point has a mirror image of the same
mass on the other side of the plane `z = 0`. -/
theorem C74_cone (gl : ℕ → Rule) (mass R H : ℝ) (hR : 0 < R) (hH : 0 < H) (dd : ℕ) (g : Gauss (gl dd) dd) (A : PtArray)
    (h : GLeg.cone gl mass R H dd dd = .ok A) :
    Inside A (doubleCone R H) ∧ (∀ p ∈ A, ∃ p' ∈ A, p'.mass = p.mass ∧ p'.pos = ![p.pos 0, p.pos 1, -p.pos 2]) ∧
      ∀ i, firstMoment A i = 0 := by
  rw [GLeg.cone] at h
  simp only at h
  split_ifs at h with h0 h1 h2 h3
  set f : ℕ → ℕ → ℕ → Pt := fun k l m => ⟨(gl dd).w m * (gl dd).w l * (gl dd).w k,
    ![(gl dd).s m * R, (gl dd).s l * R, (gl dd).s k * H]⟩ with hf
  set P : Pt → Prop := fun p => p.pos 0 ^ 2 + p.pos 1 ^ 2 ≤ (p.pos 2 / (H / R)) ^ 2 with hP
  obtain ⟨hK, hs, hA⟩ := rescale1_ok h
  set K := (rows dd dd dd f).filter fun p => decide (P p) with hKd
  set c := mass / (K.map Pt.mass).sum with hc
  have hgrid : IsGrid (gl dd) 1 0 R R H f := by intro k l m; simp [hf]
  have hx : momA A 0 1 0 = 0 := by
    have hK0 : momA K 0 1 0 = 0 := momA_xodd (P := P) g hgrid (by intro mm mm' x y z; simp [hP]) _ _ _ (by decide)
    rw [hA, momA_scaled, hK0, zero_mul]
  have hy : momA A 0 0 1 = 0 := by
    have hK0 : momA K 0 0 1 = 0 := momA_yodd (P := P) g hgrid (by intro mm mm' x y z; simp [hP]) _ _ _ (by decide)
    rw [hA, momA_scaled, hK0, zero_mul]
  have hz : momA A 1 0 0 = 0 := by
    have hK0 : momA K 1 0 0 = 0 := momA_zodd (P := P) g hgrid (by intro mm mm' x y z; simp [hP, neg_div]) _ _ _ (by decide)
    rw [hA, momA_scaled, hK0, zero_mul]
  obtain ⟨f0, f1, f2⟩ := first_momA A
  refine ⟨?_, ?_, ?_⟩
  · intro p hp
    rw [hA] at hp
    obtain ⟨p0, hp0, rfl⟩ := List.mem_map.1 hp
    have h4 := (List.mem_filter.1 hp0).2
    simp only [hP, decide_eq_true_eq] at h4
    refine ⟨?_, ?_⟩
    · obtain ⟨k, hk, l, hl, m, hm', rfl⟩ := mem_rows.1 (List.mem_filter.1 hp0).1
      show |(gl dd).s k * H| ≤ H
      rw [abs_mul, abs_of_pos hH]
      exact mul_le_of_le_one_left hH.le (node_lt g k hk).le
    · have h5 : (p0.pos 2 / (H / R)) ^ 2 = R ^ 2 * p0.pos 2 ^ 2 / H ^ 2 := by
        field_simp
      rw [h5, le_div_iff₀ (by positivity)] at h4
      dsimp only
      linarith
  · intro p hp
    rw [hA] at hp
    obtain ⟨p0, hp0, rfl⟩ := List.mem_map.1 hp
    have h4 := (List.mem_filter.1 hp0).2
    obtain ⟨k, hk, l, hl, m, hm', rfl⟩ := mem_rows.1 (List.mem_filter.1 hp0).1
    obtain ⟨j, hj, e⟩ := node_symm g k hk
    have hmem : f j l m ∈ K := by
      rw [hKd, List.mem_filter]
      exact ⟨mem_rows.2 ⟨j, hj, l, hl, m, hm', rfl⟩, by simpa [hP, hf, e, neg_div] using h4⟩
    refine ⟨⟨(f j l m).mass * c, (f j l m).pos⟩, by rw [hA]; exact List.mem_map.2 ⟨_, hmem, rfl⟩, ?_, ?_⟩
    · simp only [hf, weight_symm g hk hj e]
    · simp only [hf, e, Matrix.cons_val_zero, Matrix.cons_val_one, Matrix.cons_val, neg_mul]
  · intro i
    fin_cases i
    · exact f0.trans hx
    · exact f1.trans hy
    · exact f2.trans hz

/-- With two points per axis no point is in the cone, and the call fails. -/
theorem C74_cone_two (gl : ℕ → Rule) (mass R H : ℝ) (hR : 0 < R) (hH : 0 < H) (g : Gauss (gl 2) 2) :
    GLeg.cone gl mass R H 2 2 = .indexError := by
  have hnode : ∀ i < 2, (gl 2).s i ^ 2 = 1 / 3 := by
    have h0 := gauss_one g (by norm_num)
    have h1 := gauss_pow g 1 (by norm_num)
    have h2 := gauss_pow g 2 (by norm_num)
    obtain ⟨j, hj, e⟩ := node_symm g 0 (by norm_num)
    obtain ⟨j', hj', e'⟩ := node_symm g 1 (by norm_num)
    rw [integral_pow] at h1 h2
    simp only [sum_range_succ, sum_range_zero] at h0 h1 h2
    norm_num at h0 h1 h2
    have w0 := weight_pos g 0 (by norm_num)
    have w1 := weight_pos g 1 (by norm_num)
    have hs : (gl 2).s 1 ^ 2 = (gl 2).s 0 ^ 2 := by
      interval_cases j
      · have z0 : (gl 2).s 0 = 0 := by linarith
        interval_cases j'
        · rw [z0]; have : (gl 2).s 1 = 0 := by linarith
          rw [this]
        · have : (gl 2).s 1 = 0 := by linarith
          rw [z0, this]
      · rw [e]; ring
    intro i hi
    rw [hs] at h2
    have : ((gl 2).w 0 + (gl 2).w 1) * (gl 2).s 0 ^ 2 = 2 / 3 := by linarith
    rw [h0] at this
    interval_cases i
    · linarith
    · rw [hs]; linarith
  rw [GLeg.cone, if_neg hR.ne']
  simp only
  rw [if_neg (by norm_num), if_neg (by norm_num), if_neg hH.ne', rescale1, if_pos]
  rw [List.filter_eq_nil_iff]
  intro p hp
  obtain ⟨k, hk, l, hl, m, hm', rfl⟩ := mem_rows.1 hp
  rw [decide_eq_true_eq, not_le]
  simp only [Matrix.cons_val_zero, Matrix.cons_val_one, Matrix.cons_val]
  have h5 : ((gl 2).s k * H / (H / R)) ^ 2 = R ^ 2 * (gl 2).s k ^ 2 := by
    field_simp
  rw [h5, mul_pow, mul_pow, hnode k hk, hnode l hl, hnode m hm']
  nlinarith [sq_pos_of_pos hR]

/-- More z points than points per axis: the generators run off the end of the node table. -/
theorem C74_dz_refuses (gl : ℕ → Rule) (mass iR oR t R H theta : ℝ) (hR : R ≠ 0) (dd dz : ℕ) (hd : 1 ≤ dd) (h : dd < dz) :
    GLeg.annulus gl mass iR oR t dd dz = .indexError ∧ GLeg.cone gl mass R H dd dz = .indexError ∧
      GLeg.wedge gl mass iR oR t theta dd dz = .indexError := by
  refine ⟨?_, ?_, ?_⟩
  · rw [GLeg.annulus, if_neg (by omega), if_pos h]
  · rw [GLeg.cone, if_neg hR, if_neg (by omega), if_pos h]
  · unfold GLeg.wedge; extract_lets; rw [if_neg (by omega), if_pos h]

/-- The points of a wedge array lie in the annular sector, balanced in `y` and `z`, but again fill the
heights `|z| < t`. -/
theorem C74_wedge (gl : ℕ → Rule) (mass iR oR t theta : ℝ) (ht : 0 < t) (dd : ℕ)
    (g : Gauss (gl dd) dd) (A : PtArray) (h : GLeg.wedge gl mass iR oR t theta dd dd = .ok A) (hne : A ≠ []) :
    (∀ p ∈ A, (p.pos 0, p.pos 1) ∈ sector iR oR 0 theta ∧ |p.pos 2| < t) ∧
    firstMoment A 1 = 0 ∧ firstMoment A 2 = 0 ∧
    (2 ≤ dd → (∃ p ∈ A, t / 2 < |p.pos 2|) ∧
      (A.map fun p => p.mass * p.pos 2 ^ 2).sum = mass * ((2 * t) ^ 2 / 12)) := by
  have htot := C73_wedge gl mass iR oR t theta dd dd A h hne
  unfold GLeg.wedge at h
  extract_lets xmax xmin ymax dx xa at h
  have h1 : ¬ dd = 0 := by
    intro h0; rw [if_pos h0] at h; cases h
  rw [if_neg h1, if_neg (lt_irrefl dd)] at h
  set f : ℕ → ℕ → ℕ → Pt := fun k l m => ⟨(gl dd).w m * (gl dd).w l * (gl dd).w k,
    ![(gl dd).s m * dx + xa, (gl dd).s l * ymax, (gl dd).s k * t]⟩ with hf
  set P : Pt → Prop := fun p => |arctan2 (p.pos 1) (p.pos 0)| ≤ theta ∧ Real.sqrt (p.pos 0 ^ 2 + p.pos 1 ^ 2) ≤ oR
          ∧ Real.sqrt (p.pos 0 ^ 2 + p.pos 1 ^ 2) ≥ iR with hP
  obtain ⟨hK, hs, hA⟩ := rescale_ok h hne
  set K := (rows dd dd dd f).filter fun p => decide (P p) with hKd
  set c := mass / (K.map Pt.mass).sum with hc
  have hgrid : IsGrid (gl dd) 1 xa dx ymax t f := by intro k l m; simp [hf]
  have hconj : ∀ y x : ℝ, (y ≠ 0 ∨ 0 ≤ x) → |arctan2 (-y) x| = |arctan2 y x| := by
    intro y x hyx
    have : (⟨x, -y⟩ : ℂ) = (starRingEnd ℂ) ⟨x, y⟩ := by apply Complex.ext <;> simp
    rw [arctan2, arctan2, this, Complex.arg_conj]
    split_ifs with h0
    · rw [h0]
    · rw [abs_neg]
  have hy : momA A 0 0 1 = 0 := by
    have hK0 : momA K 0 0 1 = 0 := momA_yodd (P := P) g hgrid (by
      intro mm mm' x y z
      have e : |arctan2 (-y) x| = |arctan2 y x| := by
        rcases eq_or_ne y 0 with rfl | hy
        · simp
        · exact hconj y x (Or.inl hy)
      simp [hP, e]) _ _ _ (by decide)
    rw [hA, momA_scaled, hK0, zero_mul]
  have hz : momA A 1 0 0 = 0 := by
    have hK0 : momA K 1 0 0 = 0 := momA_zodd (P := P) g hgrid (by intro mm mm' x y z; simp [hP]) _ _ _ (by decide)
    rw [hA, momA_scaled, hK0, zero_mul]
  obtain ⟨f0, f1, f2⟩ := first_momA A
  refine ⟨?_, f1.trans hy, f2.trans hz, fun hn => ⟨?_, ?_⟩⟩
  · intro p hp
    rw [hA] at hp
    obtain ⟨p0, hp0, rfl⟩ := List.mem_map.1 hp
    have h3 := (List.mem_filter.1 hp0).2
    simp only [hP, decide_eq_true_eq] at h3
    refine ⟨⟨_, _, h3.2.2, h3.2.1, ?_, ?_, (Shp.polar_x _ _).symm, (Shp.polar_y _ _).symm⟩, ?_⟩
    · have := (abs_le.1 h3.1).1; dsimp only; linarith
    · have := (abs_le.1 h3.1).2; dsimp only; linarith
    · obtain ⟨k, hk, l, hl, m, hm', rfl⟩ := mem_rows.1 (List.mem_filter.1 hp0).1
      show |(gl dd).s k * t| < t
      rw [abs_mul, abs_of_pos ht]
      exact mul_lt_of_lt_one_left ht (node_lt g k hk)
  · obtain ⟨p0, hp0⟩ := List.exists_mem_of_ne_nil K hK
    have h3 := (List.mem_filter.1 hp0).2
    obtain ⟨k, hk, l, hl, m, hm', rfl⟩ := mem_rows.1 (List.mem_filter.1 hp0).1
    obtain ⟨i, hi, hsi⟩ := node_outer g hn
    have hmem : f i l m ∈ K := by
      rw [hKd, List.mem_filter]
      exact ⟨mem_rows.2 ⟨i, hi, l, hl, m, hm', rfl⟩, by simpa [hP, hf] using h3⟩
    refine ⟨⟨(f i l m).mass * c, (f i l m).pos⟩, by rw [hA]; exact List.mem_map.2 ⟨_, hmem, rfl⟩, ?_⟩
    show t / 2 < |(gl dd).s i * t|
    rw [abs_mul, abs_of_pos ht]
    nlinarith
  · have h5 : (A.map fun p => p.mass * p.pos 2 ^ 2).sum = momA A 2 0 0 := by simp [momA]
    have hK0 : momA K 2 0 0 = t ^ 2 / 3 * momA K 0 0 0 :=
      momA_zz (P := P) g hn hgrid (by intro mm mm' x y z z'; simp [hP])
    rw [h5, hA, momA_scaled, hK0, mul_assoc, ← momA_scaled, ← hA, momA_zero, htot]
    ring

/-- The points of a triangular prism array are inside the prism, but only in the middle half of its
y-range: none lies in the outer quarter at either end. -/
theorem C74_tri_prism (gl : ℕ → Rule) (mass d y1 y2 t : ℝ) (hd : 0 < d) (ht : 0 < t) (hy : y1 < y2) (dx dy dz : ℕ)
    (gx : Gauss (gl dx) dx) (gy : Gauss (gl dy) dy) (gz : Gauss (gl dz) dz) (A : PtArray)
    (h : GLeg.triPrism gl mass d y1 y2 t dx dy dz = .ok A) :
    Inside A (prism t (triangle (d, y1) (d, y2))) ∧
      ∀ p ∈ A, |p.pos 1 - (max 0 y2 + min 0 y1) / 2| < (max 0 y2 - min 0 y1) / 4 := by
  rw [GLeg.triPrism] at h
  simp only at h
  split_ifs at h with h1 h2
  obtain ⟨hK, hs, hA⟩ := rescale1_ok h
  have hall : ∀ p ∈ A, ∃ k < dz, ∃ l < dy, ∃ m < dx,
      p.pos = ![(gl dx).s m * d / 2 + d / 2,
        (gl dy).s l * ((max 0 y2 - min 0 y1) / 2) / 2 + (max 0 y2 + min 0 y1) / 2, (gl dz).s k * t / 2]
      ∧ p.pos 0 * y1 ≤ p.pos 1 * d ∧ p.pos 0 * y2 ≥ p.pos 1 * d := by
    intro p hp
    rw [hA] at hp
    obtain ⟨p0, hp0, rfl⟩ := List.mem_map.1 hp
    have h3 := (List.mem_filter.1 hp0).2
    rw [decide_eq_true_eq] at h3
    obtain ⟨k, hk, l, hl, m, hm', rfl⟩ := mem_rows.1 (List.mem_filter.1 hp0).1
    exact ⟨k, hk, l, hl, m, hm', rfl, h3.1, h3.2⟩
  constructor
  · intro p hp
    obtain ⟨k, hk, l, hl, m, hm', e, h3, h4⟩ := hall p hp
    have hsz := abs_lt.1 (node_lt gz k hk)
    have hsx := abs_lt.1 (node_lt gx m hm')
    have e2 : p.pos 2 = (gl dz).s k * t / 2 := by rw [e]; rfl
    have e0 : p.pos 0 = (gl dx).s m * d / 2 + d / 2 := by rw [e]; rfl
    refine ⟨?_, ?_, ?_⟩
    · rw [e2]; nlinarith
    · rw [e2]; nlinarith
    · have hx0 : 0 < p.pos 0 := by rw [e0]; nlinarith
      have hx1 : p.pos 0 ≤ d := by rw [e0]; nlinarith
      have hyy : 0 < y2 - y1 := by linarith
      refine ⟨(p.pos 0 * y2 - p.pos 1 * d) / (d * (y2 - y1)), (p.pos 1 * d - p.pos 0 * y1) / (d * (y2 - y1)),
        div_nonneg (by linarith) (by positivity), div_nonneg (by linarith) (by positivity), ?_, ?_, ?_⟩
      · rw [← add_div, div_le_one (by positivity)]
        nlinarith
      · field_simp; ring
      · field_simp; ring
  · intro p hp
    obtain ⟨k, hk, l, hl, m, hm', e, h3, h4⟩ := hall p hp
    have hsy := node_lt gy l hl
    have e1 : p.pos 1 = (gl dy).s l * ((max 0 y2 - min 0 y1) / 2) / 2 + (max 0 y2 + min 0 y1) / 2 := by rw [e]; rfl
    have hb : 0 < max 0 y2 - min 0 y1 := by
      have := le_max_right 0 y2
      have := min_le_right 0 y1
      linarith
    rw [e1, show (gl dy).s l * ((max 0 y2 - min 0 y1) / 2) / 2 + (max 0 y2 + min 0 y1) / 2 - (max 0 y2 + min 0 y1) / 2
      = (gl dy).s l * ((max 0 y2 - min 0 y1) / 4) by ring, abs_mul, abs_of_pos (by positivity : 0 < (max 0 y2 - min 0 y1) / 4)]
    exact mul_lt_of_lt_one_left (by positivity) hsy

/-- A prism that extends towards negative `x` fails, and one with its vertices in the wrong order is
answered with an empty list. -/
theorem C74_tri_prism_refuses (gl : ℕ → Rule) (mass d y1 y2 t : ℝ) (dx dy dz : ℕ) :
    (y2 < y1 → GLeg.triPrism gl mass d y1 y2 t dx dy dz = .emptyList) ∧
    (y1 < y2 → d < 0 → 1 ≤ dx → 1 ≤ dy → 1 ≤ dz → Gauss (gl dx) dx →
      GLeg.triPrism gl mass d y1 y2 t dx dy dz = .indexError) := by
  refine ⟨fun h => by rw [GLeg.triPrism, if_pos h], fun h hd hx hy hz gx => ?_⟩
  rw [GLeg.triPrism, if_neg (by linarith)]
  simp only
  rw [if_neg (by omega), rescale1, if_pos]
  rw [List.filter_eq_nil_iff]
  intro p hp
  obtain ⟨k, hk, l, hl, m, hm', rfl⟩ := mem_rows.1 hp
  rw [decide_eq_true_eq]
  simp only [Matrix.cons_val_zero, Matrix.cons_val_one, Matrix.cons_val]
  rintro ⟨h1, h2⟩
  have hsx := abs_lt.1 (node_lt gx m hm')
  have h3 : (gl dx).s m * d / 2 + d / 2 < 0 := by nlinarith
  nlinarith

/-! ### The hypotheses can be met -/

theorem annulus_ok_of_mem (gl : ℕ → Rule) (mass iR oR t : ℝ) (dd : ℕ) (hd : 1 ≤ dd) (g : Gauss (gl dd) dd)
    (i j : ℕ) (hi : i < dd) (hj : j < dd) (h1 : iR ^ 2 ≤ ((gl dd).s i * oR) ^ 2 + ((gl dd).s j * oR) ^ 2)
    (h2 : ((gl dd).s i * oR) ^ 2 + ((gl dd).s j * oR) ^ 2 ≤ oR ^ 2) :
    ∃ A, GLeg.annulus gl mass iR oR t dd dd = .ok A := by
  rw [GLeg.annulus, if_neg (by omega), if_neg (lt_irrefl _)]
  refine ⟨_, rescale1_eq mass _ ?_ (sum_pos_of_mem _ ?_ ?_).ne'⟩
  · exact List.ne_nil_of_mem (List.mem_filter.2 ⟨mem_rows.2 ⟨0, hd, j, hj, i, hi, rfl⟩, by simpa using ⟨h1, h2⟩⟩)
  · exact List.ne_nil_of_mem (List.mem_filter.2 ⟨mem_rows.2 ⟨0, hd, j, hj, i, hi, rfl⟩, by simpa using ⟨h1, h2⟩⟩)
  · intro p hp
    obtain ⟨k, hk, l, hl, m, hm', rfl⟩ := mem_rows.1 (List.mem_filter.1 hp).1
    have := weight_pos g m hm'
    have := weight_pos g l hl
    have := weight_pos g k hk
    dsimp only
    positivity

example : ∃ A, GLeg.annulus sampleRules 3 1 2 1 2 2 = .ok A ∧ totalMass A = 3 ∧ ¬ Inside A (Spec.ring 1 2 1) := by
  have h3 : (sampleRules 2).s 0 ^ 2 = 1 / 3 := by
    simp [sampleRules]
  obtain ⟨A, hA⟩ := annulus_ok_of_mem sampleRules 3 1 2 1 2 (by norm_num) sample2 0 0 (by norm_num) (by norm_num)
    (by rw [mul_pow, h3]; norm_num) (by rw [mul_pow, h3]; norm_num)
  exact ⟨A, hA, C73_annulus _ _ _ _ _ _ _ _ hA, ((C74_annulus _ _ _ _ _ (by norm_num) _ sample2 _ hA).2.2 le_rfl).1⟩

example : GLeg.cone sampleRules 1 1 1 2 2 = .indexError :=
  C74_cone_two sampleRules 1 1 1 (by norm_num) (by norm_num) sample2

example : ∃ A, GLeg.sphere sampleRules 1 1 3 = .ok A ∧ totalMass A = 1 := by
  obtain ⟨A, h1, -, h3, -⟩ := C74_sphere sampleRules 1 1 3 (by norm_num) (by norm_num) (by norm_num) sample3
  exact ⟨A, h1, h3⟩

example : ∃ A, GLeg.cone sampleRules 1 1 1 3 3 = .ok A := by
  rw [GLeg.cone, if_neg (by norm_num)]
  simp only
  rw [if_neg (by norm_num), if_neg (by norm_num), if_neg (by norm_num)]
  have hmem : (⟨(sampleRules 3).w 1 * (sampleRules 3).w 1 * (sampleRules 3).w 1,
      ![(sampleRules 3).s 1 * 1, (sampleRules 3).s 1 * 1, (sampleRules 3).s 1 * 1]⟩ : Pt) ∈
      ((rows 3 3 3 fun k l m => ⟨(sampleRules 3).w m * (sampleRules 3).w l * (sampleRules 3).w k,
        ![(sampleRules 3).s m * 1, (sampleRules 3).s l * 1, (sampleRules 3).s k * 1]⟩).filter fun p =>
          decide (p.pos 0 ^ 2 + p.pos 1 ^ 2 ≤ (p.pos 2 / (1 / 1)) ^ 2)) := by
    refine List.mem_filter.2 ⟨mem_rows.2 ⟨1, by norm_num, 1, by norm_num, 1, by norm_num, rfl⟩, ?_⟩
    simp [sampleRules]
  refine ⟨_, rescale1_eq 1 _ (List.ne_nil_of_mem hmem) (sum_pos_of_mem _ (List.ne_nil_of_mem hmem) ?_).ne'⟩
  intro p hp
  obtain ⟨k, hk, l, hl, m, hm', rfl⟩ := mem_rows.1 (List.mem_filter.1 hp).1
  have := weight_pos sample3 m hm'
  have := weight_pos sample3 l hl
  have := weight_pos sample3 k hk
  dsimp only
  positivity

example : GLeg.triPrism sampleRules 1 1 3 2 1 2 2 2 = .emptyList :=
  (C74_tri_prism_refuses sampleRules 1 1 3 2 1 2 2 2).1 (by norm_num)

/-- A triangular prism with points. -/
example : ∃ A, GLeg.triPrism sampleRules 1 1 (-1) 1 1 1 1 1 = .ok A := by
  rw [GLeg.triPrism, if_neg (by norm_num)]
  simp only
  rw [if_neg (by norm_num)]
  have hne : ((rows 1 1 1 fun k l m =>
        (⟨(sampleRules 1).w m * (sampleRules 1).w l * (sampleRules 1).w k,
          ![(sampleRules 1).s m * 1 / 2 + 1 / 2, (sampleRules 1).s l * ((max 0 1 - min 0 (-1)) / 2) / 2 + (max 0 1 + min 0 (-1)) / 2, (sampleRules 1).s k * 1 / 2]⟩ : Pt)).filter fun p =>
          decide (p.pos 0 * (-1) ≤ p.pos 1 * 1 ∧ p.pos 0 * 1 ≥ p.pos 1 * 1)) ≠ [] := by
    refine List.ne_nil_of_mem (List.mem_filter.2 ⟨mem_rows.2 ⟨0, by norm_num, 0, by norm_num, 0, by norm_num, rfl⟩, ?_⟩)
    norm_num [sampleRules]
  refine ⟨_, rescale1_eq 1 _ hne (sum_pos_of_mem _ hne ?_).ne'⟩
  intro p hp
  obtain ⟨k, hk, l, hl, m, hm', rfl⟩ := mem_rows.1 (List.mem_filter.1 hp).1
  norm_num [sampleRules]

/-- A wedge of half-angle `pi` (a full ring) with points, two per axis. -/
example : ∃ A, GLeg.wedge sampleRules 3 1 2 1 Real.pi 2 2 = .ok A ∧ A ≠ [] := by
  have hpi := Real.pi_pos
  have h3 : (sampleRules 2).s 0 ^ 2 = 1 / 3 := by simp [sampleRules]
  unfold GLeg.wedge
  extract_lets xmax xmin ymax dx xa g
  rw [if_neg (by norm_num), if_neg (by norm_num)]
  have hx : xmin = -2 := by simp [xmin, if_neg (by linarith : ¬ Real.pi < Real.pi / 2)]
  have hy : ymax = 2 := by simp [ymax, if_neg (by linarith : ¬ Real.pi < Real.pi / 2)]
  have hdx : dx = 2 := by simp only [dx, hx, xmax]; norm_num
  have hxa : xa = 0 := by simp only [xa, hx, xmax]; norm_num
  set K := ((rows 2 2 2 fun k l m =>
      (⟨g.w m * g.w l * g.w k, ![g.s m * dx + xa, g.s l * ymax, g.s k * 1]⟩ : Pt)).filter fun p =>
        decide (|arctan2 (p.pos 1) (p.pos 0)| ≤ Real.pi ∧ Real.sqrt (p.pos 0 ^ 2 + p.pos 1 ^ 2) ≤ 2
          ∧ Real.sqrt (p.pos 0 ^ 2 + p.pos 1 ^ 2) ≥ 1)) with hK
  have hne : K ≠ [] := by
    refine List.ne_nil_of_mem (List.mem_filter.2 ⟨mem_rows.2 ⟨0, by norm_num, 0, by norm_num, 0, by norm_num, rfl⟩, ?_⟩)
    rw [decide_eq_true_eq]
    simp only [Matrix.cons_val_zero, Matrix.cons_val_one, Matrix.cons_val, hdx, hxa, hy, add_zero, mul_pow]
    rw [show g.s 0 ^ 2 = 1 / 3 from h3]
    refine ⟨Complex.abs_arg_le_pi _, ?_, ?_⟩
    · rw [Real.sqrt_le_iff]; norm_num
    · exact Real.le_sqrt_of_sq_le (by norm_num)
  have hsum : (K.map Pt.mass).sum ≠ 0 := by
    refine (sum_pos_of_mem _ hne ?_).ne'
    intro p hp
    obtain ⟨k, hk, l, hl, m, hm', rfl⟩ := mem_rows.1 (List.mem_filter.1 hp).1
    have := weight_pos sample2 m hm'
    have := weight_pos sample2 l hl
    have := weight_pos sample2 k hk
    simp only [g]
    positivity
  refine ⟨_, by rw [rescale, if_neg hne, if_neg hsum], by simpa using hne⟩

end Newt
