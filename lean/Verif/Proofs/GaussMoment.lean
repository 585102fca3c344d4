import Verif.Proofs.Gauss
import Verif.Proofs.AchSolid
import Verif.Proofs.MpcShapes
import Verif.Proofs.QlmClosed

/-! # Moments of Gauss-Legendre point arrays -/

namespace Newt.GLeg

open Spec Finset MeasureTheory Ach

/-- `sum_i m_i z_i^e x_i^a y_i^b`. -/
noncomputable def momA (A : PtArray) (e a b : ℕ) : ℝ :=
  (A.map fun p => p.mass * (p.pos 2 ^ e * (p.pos 0 ^ a * p.pos 1 ^ b))).sum

theorem inner_expand (A : PtArray) (l m : ℕ) (hm : m ≤ l) :
    innerMoment A l m = ∑ k ∈ range ((l - m) / 2 + 1), ((Nlm l m * rc l m k : ℝ) : ℂ) *
      ∑ i ∈ range (m + 1), ∑ j ∈ range (k + 1), (m.choose i : ℂ) * (k.choose j : ℂ) * (-Complex.I) ^ i
        * ((momA A (l - m - 2 * k) (m + 2 * k - (2 * j + i)) (2 * j + i) : ℝ) : ℂ) := by
  induction A with
  | nil => simp [innerMoment, momA]
  | cons p A ih =>
    rw [innerMoment_cons, ih, solidS_cyl l m hm]
    simp only [pmf_expand2, mul_sum]
    rw [← sum_add_distrib]
    refine sum_congr rfl fun k _ => ?_
    rw [← sum_add_distrib]
    refine sum_congr rfl fun i _ => ?_
    rw [← sum_add_distrib]
    refine sum_congr rfl fun j _ => ?_
    simp only [momA, List.map_cons, List.sum_cons]
    push_cast
    ring

/-- A point array whose monomial sums of degree `l` are those of a solid has the solid's moments. -/
theorem moment_of_monomials (A : PtArray) (c : ℝ) (S : Set (ℝ × (ℝ × ℝ))) (hS : IsCompact S) (l : ℕ)
    (h : ∀ e a b, e + a + b = l → momA A e a b = c * mon3 S e a b) (m : ℕ) (hm : m ≤ l) :
    innerMoment A l m = (c : ℂ) * ∫ v in {v : V3 | (v 2, (v 0, v 1)) ∈ S}, solidS l m v := by
  rw [inner_expand A l m hm, solid_int_pS l m hm S hS, mul_sum]
  refine sum_congr rfl fun k hk => ?_
  rw [expands_solid S hS _ m k, mul_sum, mul_sum, mul_sum]
  refine sum_congr rfl fun i hi => ?_
  rw [mul_sum, mul_sum, mul_sum]
  refine sum_congr rfl fun j hj => ?_
  simp only [mem_range] at hk hi hj
  rw [h _ _ _ (by omega)]
  push_cast
  ring

theorem rows_sum (nx ny nz : ℕ) (f : ℕ → ℕ → ℕ → Pt) (g : Pt → ℝ) :
    ((rows nx ny nz f).map g).sum = ∑ k ∈ range nz, ∑ l ∈ range ny, ∑ m ∈ range nx, g (f k l m) := by
  have key : ∀ (n : ℕ) (F : ℕ → List Pt), (((List.range n).flatMap F).map g).sum
      = ∑ k ∈ range n, ((F k).map g).sum := by
    intro n F
    induction n with
    | zero => simp
    | succ n ih => rw [List.range_succ, List.flatMap_append, List.map_append, List.sum_append, ih, sum_range_succ]; simp
  have key2 : ∀ (n : ℕ) (F : ℕ → Pt), (((List.range n).map F).map g).sum = ∑ k ∈ range n, g (F k) := by
    intro n F
    induction n with
    | zero => simp
    | succ n ih => rw [List.range_succ, List.map_append, List.map_append, List.sum_append, ih, sum_range_succ]; simp
  rw [rows, key]
  refine sum_congr rfl fun k _ => ?_
  rw [key]
  exact sum_congr rfl fun l _ => key2 _ _

theorem mem_rows {nx ny nz : ℕ} {f : ℕ → ℕ → ℕ → Pt} {p : Pt} :
    p ∈ rows nx ny nz f ↔ ∃ k < nz, ∃ l < ny, ∃ m < nx, f k l m = p := by
  simp only [rows, List.mem_flatMap, List.mem_map, List.mem_range]

/-- One dimension: the scaled rule integrates powers over `[-a/2, a/2]`. -/
theorem gauss_scaled {r : Rule} {n : ℕ} (g : Gauss r n) (e : ℕ) (he : e < 2 * n) (a : ℝ) (ha : 0 < a) :
    ∑ i ∈ range n, r.w i * (r.s i * a / 2) ^ e = 2 / a * ∫ x in Set.Icc (-(a / 2)) (a / 2), x ^ e := by
  have h1 : ∑ i ∈ range n, r.w i * (r.s i * a / 2) ^ e = (a / 2) ^ e * ∑ i ∈ range n, r.w i * r.s i ^ e := by
    rw [mul_sum]
    refine sum_congr rfl fun i _ => ?_
    rw [mul_div_assoc, mul_pow]; ring
  rw [h1, gauss_pow g e he, integral_Icc_eq_integral_Ioc, ← intervalIntegral.integral_of_le (by linarith)]
  rw [integral_pow, integral_pow]
  have : (e : ℝ) + 1 ≠ 0 := by positivity
  have h2 : (-(a / 2)) ^ (e + 1) = (a / 2) ^ (e + 1) * (-1) ^ (e + 1) := by
    rw [neg_pow]; ring
  rw [h2, pow_succ (a / 2) e]
  field_simp
  try ring

/-- The box in the coordinates `(z, (x, y))`. -/
def boxS (x y z : ℝ) : Set (ℝ × (ℝ × ℝ)) :=
  Set.Icc (-(z / 2)) (z / 2) ×ˢ (Set.Icc (-(x / 2)) (x / 2) ×ˢ Set.Icc (-(y / 2)) (y / 2))

theorem boxS_compact (x y z : ℝ) : IsCompact (boxS x y z) :=
  isCompact_Icc.prod (isCompact_Icc.prod isCompact_Icc)

theorem mon3_box (x y z : ℝ) (e a b : ℕ) : mon3 (boxS x y z) e a b
    = (∫ s in Set.Icc (-(z / 2)) (z / 2), s ^ e) * ((∫ s in Set.Icc (-(x / 2)) (x / 2), s ^ a)
      * ∫ s in Set.Icc (-(y / 2)) (y / 2), s ^ b) := by
  rw [mon3, boxS, Measure.volume_eq_prod, setIntegral_prod_mul (fun s : ℝ => s ^ e) (fun q : ℝ × ℝ => q.1 ^ a * q.2 ^ b),
    Measure.volume_eq_prod, setIntegral_prod_mul (fun s : ℝ => s ^ a) (fun s : ℝ => s ^ b)]

theorem boxS_eq (x y z : ℝ) : {v : V3 | (v 2, (v 0, v 1)) ∈ boxS x y z} = prism z (Spec.rectangle x y) := by
  ext v
  simp only [boxS, Set.mem_prod, Set.mem_Icc, Set.mem_setOf_eq, prism, Spec.rectangle, abs_le, and_assoc]

end Newt.GLeg
