import Verif.Spec.FarField
import Verif.Props.Glib
import Verif.Props.Rings
import Verif.Props.ForceConv
import Mathlib.Analysis.SpecialFunctions.Exp

/-!
# C108: the far field of two arrays of point masses
-/

namespace Newt

open Spec Filter Topology

theorem modulus_sq3 (v : V3) : modulus v ^ 2 = v 0 ^ 2 + v 1 ^ 2 + v 2 ^ 2 := by
  rw [modulus, Real.sq_sqrt (by positivity)]

/-- The exact bound for one pair: two displacements `x` and `d` that differ by `e` give inverse square forces that differ by at most
`e/(|x||d|) (1/|x| + 1/|d|)`. -/
theorem pair_far (x d : V3) (hx : x ≠ 0) (hd : d ≠ 0) :
    modulus ((1 / modulus x ^ 3) • x - (1 / modulus d ^ 3) • d)
      ≤ modulus (x - d) * (1 / modulus x) * (1 / modulus d) * (1 / modulus x + 1 / modulus d) := by
  have hX := modulus_pos hx
  have hD := modulus_pos hd
  have h1 : modulus x ≤ modulus (x - d) + modulus d := by
    have := modulus_add_le (x - d) d
    rwa [sub_add_cancel] at this
  have h2 : modulus d ≤ modulus (x - d) + modulus x := by
    have := modulus_add_le (-(x - d)) x
    rw [modulus_neg] at this
    rwa [neg_sub, sub_add_cancel] at this
  have sx := modulus_sq3 x
  have sd := modulus_sq3 d
  have se := modulus_sq3 (x - d)
  set X := modulus x with eX
  set D := modulus d with eD
  set e := modulus (x - d) with ee
  have he : 0 ≤ e := modulus_nonneg _
  have hr : 0 ≤ e * (1 / X) * (1 / D) * (1 / X + 1 / D) := by positivity
  refine abs_le_of_sq_le_sq' ?_ hr |>.2
  rw [modulus_sq3]
  simp only [Pi.sub_apply, Pi.smul_apply, smul_eq_mul] at se ⊢
  have hp : X * (1 / X) = 1 := by field_simp
  have hq : D * (1 / D) = 1 := by field_simp
  have c3 : ∀ y : ℝ, 1 / y ^ 3 = (1 / y) ^ 3 := fun y => by rw [one_div_pow]
  rw [c3, c3]
  set p := 1 / X with ep
  set q := 1 / D with eq
  have hp0 : 0 < p := by positivity
  have hq0 : 0 < q := by positivity
  have key : (p ^ 3 * x 0 - q ^ 3 * d 0) ^ 2 + (p ^ 3 * x 1 - q ^ 3 * d 1) ^ 2 + (p ^ 3 * x 2 - q ^ 3 * d 2) ^ 2
      = (p - q) ^ 2 * (p ^ 2 + p * q + q ^ 2) + e ^ 2 * p ^ 3 * q ^ 3 := by
    have a1 : p ^ 6 * X ^ 2 = p ^ 4 := by
      calc p ^ 6 * X ^ 2 = p ^ 4 * (X * p) ^ 2 := by ring
        _ = p ^ 4 := by rw [hp]; ring
    have a2 : q ^ 6 * D ^ 2 = q ^ 4 := by
      calc q ^ 6 * D ^ 2 = q ^ 4 * (D * q) ^ 2 := by ring
        _ = q ^ 4 := by rw [hq]; ring
    have a3 : p ^ 3 * q ^ 3 * X ^ 2 = p * q ^ 3 := by
      calc p ^ 3 * q ^ 3 * X ^ 2 = p * q ^ 3 * (X * p) ^ 2 := by ring
        _ = _ := by rw [hp]; ring
    have a4 : p ^ 3 * q ^ 3 * D ^ 2 = p ^ 3 * q := by
      calc p ^ 3 * q ^ 3 * D ^ 2 = p ^ 3 * q * (D * q) ^ 2 := by ring
        _ = _ := by rw [hq]; ring
    rw [sx] at a1 a3
    rw [sd] at a2 a4
    rw [se]
    linear_combination a1 + a2 - a3 - a4
  rw [key]
  have hpq : (p - q) ^ 2 ≤ (e * p * q) ^ 2 := by
    have : p - q = (D - X) * p * q := by
      calc p - q = (D * q) * p - (X * p) * q := by rw [hp, hq]; ring
        _ = _ := by ring
    rw [this]
    apply sq_le_sq'
    · have : 0 ≤ (e + D - X) * p * q := by
        apply mul_nonneg (mul_nonneg _ hp0.le) hq0.le; linarith
      nlinarith [this]
    · have : 0 ≤ (e + X - D) * p * q := by
        apply mul_nonneg (mul_nonneg _ hp0.le) hq0.le; linarith
      nlinarith [this]
  calc (p - q) ^ 2 * (p ^ 2 + p * q + q ^ 2) + e ^ 2 * p ^ 3 * q ^ 3
      ≤ (e * p * q) ^ 2 * (p ^ 2 + p * q + q ^ 2) + e ^ 2 * p ^ 3 * q ^ 3 := by gcongr
    _ = (e * p * q * (p + q)) ^ 2 := by ring

theorem modulus_sum_le (l : List V3) : modulus l.sum ≤ (l.map modulus).sum := by
  induction l with
  | nil => simp [(modulus_eq_zero 0).2 rfl]
  | cons v l ih =>
    rw [List.sum_cons, List.map_cons, List.sum_cons]
    exact (modulus_add_le _ _).trans (by linarith)

theorem modulus_cross_le (a b : V3) : modulus (crossProduct a b) ≤ modulus a * modulus b := by
  have h : modulus (crossProduct a b) ^ 2 ≤ (modulus a * modulus b) ^ 2 := by
    rw [mul_pow, modulus_sq3, modulus_sq3, modulus_sq3, cross_apply]
    simp only [Matrix.cons_val]
    nlinarith [sq_nonneg (a 0 * b 0 + a 1 * b 1 + a 2 * b 2)]
  exact abs_le_of_sq_le_sq' h (mul_nonneg (modulus_nonneg _) (modulus_nonneg _)) |>.2

/-- the double sum with a weight bounded on every pair -/
theorem double_sum_bound (A B : PtArray) (f : Pt → Pt → V3) (c : ℝ)
    (h : ∀ a ∈ A, ∀ b ∈ B, modulus (f a b) ≤ |a.mass| * |b.mass| * c) :
    modulus (A.map fun a => (B.map fun b => f a b).sum).sum ≤ absMass A * absMass B * c := by
  refine (modulus_sum_le _).trans ?_
  rw [List.map_map]
  have h1 : ∀ a ∈ A, modulus (B.map fun b => f a b).sum ≤ |a.mass| * (absMass B * c) := by
    intro a ha
    refine (modulus_sum_le _).trans ?_
    rw [List.map_map]
    calc (B.map (modulus ∘ fun b => f a b)).sum ≤ (B.map fun b => |b.mass| * (|a.mass| * c)).sum := by
          apply List.sum_le_sum
          intro b hb
          refine (h a ha b hb).trans (le_of_eq ?_)
          ring
      _ = |a.mass| * (absMass B * c) := by rw [List.sum_map_mul_right]; unfold absMass; ring
  calc (A.map (modulus ∘ fun a => (B.map fun b => f a b).sum)).sum ≤ (A.map fun a => |a.mass| * (absMass B * c)).sum :=
        List.sum_le_sum fun a ha => h1 a ha
    _ = absMass A * absMass B * c := by rw [List.sum_map_mul_right]; unfold absMass; ring

theorem far_bound_pos {D r : ℝ} (h0 : 0 ≤ r) (hD : r < D) : 0 ≤ r * (2 * D - r) / (D ^ 2 * (D - r) ^ 2) := by
  have : 0 ≤ 2 * D - r := by linarith
  positivity

/-- one pair of points of two arrays far apart -/
theorem pair_far_bound (a b d : V3) (ra rb : ℝ) (ha : modulus a ≤ ra) (hb : modulus b ≤ rb) (hD : ra + rb < modulus d) :
    b + d - a ≠ 0 ∧ modulus d - (ra + rb) ≤ modulus (b + d - a) ∧
    modulus ((1 / modulus (b + d - a) ^ 3) • (b + d - a) - (1 / modulus d ^ 3) • d)
      ≤ (ra + rb) * (2 * modulus d - (ra + rb)) / (modulus d ^ 2 * (modulus d - (ra + rb)) ^ 2) := by
  have hr : 0 ≤ ra + rb := add_nonneg ((modulus_nonneg _).trans ha) ((modulus_nonneg _).trans hb)
  have e1 : b + d - a - d = b + -a := by abel
  have h1 : modulus (b + d - a - d) ≤ ra + rb := by
    rw [e1]
    refine (modulus_add_le _ _).trans ?_
    rw [modulus_neg]; linarith
  have h2 : modulus d ≤ modulus (b + d - a - d) + modulus (b + d - a) := by
    have := modulus_add_le (-(b + d - a - d)) (b + d - a)
    rw [modulus_neg] at this
    rwa [neg_sub, sub_add_cancel] at this
  have h3 : modulus d - (ra + rb) ≤ modulus (b + d - a) := by linarith
  have hpos : 0 < modulus (b + d - a) := by linarith
  have hd : 0 < modulus d := by linarith
  have hx0 : b + d - a ≠ 0 := fun e => by rw [e, (modulus_eq_zero 0).2 rfl] at hpos; exact lt_irrefl _ hpos
  have hd0 : d ≠ 0 := fun e => by rw [e, (modulus_eq_zero 0).2 rfl] at hd; exact lt_irrefl _ hd
  refine ⟨hx0, h3, (pair_far _ _ hx0 hd0).trans ?_⟩
  have hg : 0 < modulus d - (ra + rb) := by linarith
  have h4 : 1 / modulus (b + d - a) ≤ 1 / (modulus d - (ra + rb)) := one_div_le_one_div_of_le hg h3
  calc modulus (b + d - a - d) * (1 / modulus (b + d - a)) * (1 / modulus d) * (1 / modulus (b + d - a) + 1 / modulus d)
      ≤ (ra + rb) * (1 / (modulus d - (ra + rb))) * (1 / modulus d) * (1 / (modulus d - (ra + rb)) + 1 / modulus d) := by
        gcongr
    _ = _ := by
        field_simp
        ring

theorem apart_far {A B : PtArray} {d : V3} {ra rb : ℝ} (hA : WithinBall ra A) (hB : WithinBall rb B) (hD : ra + rb < modulus d) :
    Apart A (translate_point_array B d) := by
  intro a ha b hb e
  obtain ⟨b, hb', rfl⟩ := List.mem_map.1 hb
  have := (pair_far_bound a.pos b.pos d ra rb (hA a ha) (hB b hb') hD).1
  exact this (by rw [e]; simp [translate_point])

theorem sum_map_smul_right (A : PtArray) (f : Pt → ℝ) (v : V3) : (A.map fun a => f a • v).sum = (A.map f).sum • v := by
  rw [List.sum_smul, List.map_map]; rfl

theorem firstMoment_eq (A : PtArray) : firstMoment A = (A.map fun p => p.mass • p.pos).sum := by
  funext i
  rw [list_sum_apply, List.map_map]
  rfl

theorem list_sum_cross (A : PtArray) (f : Pt → V3) (v : V3) :
    crossProduct (A.map f).sum v = (A.map fun a => crossProduct (f a) v).sum := by
  induction A with
  | nil => simp
  | cons a A ih => simp only [List.map_cons, List.sum_cons, map_add, LinearMap.add_apply, ih]

theorem sub_double_sum (A B : PtArray) (f g : Pt → Pt → V3) :
    (A.map fun a => (B.map fun b => f a b).sum).sum - (A.map fun a => (B.map fun b => g a b).sum).sum
      = (A.map fun a => (B.map fun b => f a b - g a b).sum).sum := by
  have h : ∀ (l : PtArray) (u w : Pt → V3), (l.map u).sum - (l.map w).sum = (l.map fun b => u b - w b).sum := by
    intro l u w
    induction l with
    | nil => simp
    | cons b l ih => simp only [List.map_cons, List.sum_cons]; rw [← ih]; abel
  simp only [h]

theorem sum_pairs (A B : PtArray) (v : V3) (c : ℝ) :
    (A.map fun a => (B.map fun b => (c * a.mass * b.mass) • v).sum).sum = (c * totalMass A * totalMass B) • v := by
  have h : ∀ a : Pt, (B.map fun b => (c * a.mass * b.mass) • v).sum = a.mass • ((c * totalMass B) • v) := by
    intro a
    have : (B.map fun b => (c * a.mass * b.mass) • v) = B.map fun b => b.mass • ((c * a.mass) • v) := by
      apply List.map_congr_left; intro b _; rw [smul_smul]; congr 1; ring
    rw [this, sum_map_smul_right, totalMass, smul_smul, smul_smul]
    congr 1; ring
  simp only [h]
  rw [sum_map_smul_right, smul_smul]
  congr 1; unfold totalMass; ring

/-- C108: the force between two arrays that fit in balls of radii `ra` and `rb` whose centres are `d` apart is that of two points of
their total masses at the centres, up to an explicit error that falls like `1/|d|^3`; and the torque is that of the uniform field of
the second array on the first moment of the first, with the same relative error. -/
theorem C108_far (A B : PtArray) (d : V3) (ra rb : ℝ) (hA : WithinBall ra A) (hB : WithinBall rb B) (h0 : 0 ≤ ra + rb) (hD : ra + rb < modulus d) :
    ∃ F T, point_matrix_gravity A (translate_point_array B d) = some (F, T) ∧
      modulus (F - (BIG_G * totalMass A * totalMass B / modulus d ^ 3) • d)
        ≤ BIG_G * absMass A * absMass B * ((ra + rb) * (2 * modulus d - (ra + rb)) / (modulus d ^ 2 * (modulus d - (ra + rb)) ^ 2)) ∧
      modulus (T - (BIG_G * totalMass B / modulus d ^ 3) • crossProduct (firstMoment A) d)
        ≤ ra * (BIG_G * absMass A * absMass B * ((ra + rb) * (2 * modulus d - (ra + rb)) / (modulus d ^ 2 * (modulus d - (ra + rb)) ^ 2))) := by
  have hG := BIG_G_pos
  set c := (ra + rb) * (2 * modulus d - (ra + rb)) / (modulus d ^ 2 * (modulus d - (ra + rb)) ^ 2) with hc
  have hc0 : 0 ≤ c := far_bound_pos h0 hD
  have key : ∀ a b : Pt, gW a (translate_point d b) • ((translate_point d b).pos - a.pos) - (BIG_G / modulus d ^ 3 * a.mass * b.mass) • d
      = (BIG_G * a.mass * b.mass) • ((1 / modulus (b.pos + d - a.pos) ^ 3) • (b.pos + d - a.pos) - (1 / modulus d ^ 3) • d) := by
    intro a b
    simp only [gW, translate_point]
    rw [smul_sub (BIG_G * a.mass * b.mass), smul_smul, smul_smul]
    congr 2 <;> ring
  have hpair : ∀ a ∈ A, ∀ b ∈ B,
      modulus (gW a (translate_point d b) • ((translate_point d b).pos - a.pos) - (BIG_G / modulus d ^ 3 * a.mass * b.mass) • d)
        ≤ |a.mass| * |b.mass| * (BIG_G * c) := by
    intro a ha b hb
    rw [key, modulus_smul, abs_mul, abs_mul, abs_of_pos hG]
    have := (pair_far_bound a.pos b.pos d ra rb (hA a ha) (hB b hb) hD).2.2
    calc BIG_G * |a.mass| * |b.mass| * _ ≤ BIG_G * |a.mass| * |b.mass| * c := by gcongr
      _ = _ := by ring
  refine ⟨_, _, pmg_some (apart_far hA hB hD), ?_, ?_⟩
  · have e := sum_pairs A B d (BIG_G / modulus d ^ 3)
    have e' : BIG_G / modulus d ^ 3 * totalMass A * totalMass B = BIG_G * totalMass A * totalMass B / modulus d ^ 3 := by ring
    rw [e'] at e
    rw [← e, totF]
    simp only [translate_point_array, List.map_map, Function.comp_def]
    rw [sub_double_sum]
    refine (double_sum_bound A B _ (BIG_G * c) hpair).trans (le_of_eq ?_)
    ring
  · have e : (BIG_G * totalMass B / modulus d ^ 3) • crossProduct (firstMoment A) d
        = (A.map fun a => (B.map fun b => crossProduct a.pos ((BIG_G / modulus d ^ 3 * a.mass * b.mass) • d)).sum).sum := by
      rw [firstMoment_eq, list_sum_cross, ← smul_list_sum, List.map_map]
      congr 1
      apply List.map_congr_left
      intro a _
      simp only [Function.comp, map_smul, LinearMap.smul_apply]
      rw [sum_map_smul_right, smul_smul]
      congr 1
      rw [List.sum_map_mul_left, totalMass]
      ring
    rw [e, totT_eq]
    simp only [translate_point_array, List.map_map, Function.comp_def]
    rw [sub_double_sum]
    refine (double_sum_bound A B _ (ra * (BIG_G * c)) ?_).trans (le_of_eq ?_)
    · intro a ha b hb
      rw [← map_sub]
      have hr := hA a ha
      have : 0 ≤ ra := (modulus_nonneg _).trans hr
      refine (modulus_cross_le _ _).trans ?_
      calc modulus a.pos * _ ≤ ra * (|a.mass| * |b.mass| * (BIG_G * c)) := mul_le_mul hr (hpair a ha b hb) (modulus_nonneg _) this
        _ = _ := by ring
    · ring

/-- C108: the force of a Yukawa interaction between two such arrays is bounded by that of the total masses at the smallest possible
distance, so it falls exponentially. -/
theorem C108_yukawa_far (A B : PtArray) (d : V3) (ra rb alpha lmbd : ℝ) (hl : 0 < lmbd) (hA : WithinBall ra A) (hB : WithinBall rb B)
    (h0 : 0 ≤ ra + rb) (hD : ra + rb < modulus d) :
    ∃ F T, point_matrix_yukawa A (translate_point_array B d) alpha lmbd = some (F, T) ∧
      modulus F ≤ |alpha| * BIG_G * absMass A * absMass B *
        (Real.exp (-(modulus d - (ra + rb)) / lmbd) * (1 / (modulus d - (ra + rb)) ^ 2 + 1 / ((modulus d - (ra + rb)) * lmbd))) ∧
      modulus T ≤ ra * (|alpha| * BIG_G * absMass A * absMass B *
        (Real.exp (-(modulus d - (ra + rb)) / lmbd) * (1 / (modulus d - (ra + rb)) ^ 2 + 1 / ((modulus d - (ra + rb)) * lmbd)))) := by
  have hG := BIG_G_pos
  set g := modulus d - (ra + rb) with hg
  have hg0 : 0 < g := by rw [hg]; linarith
  set c := Real.exp (-g / lmbd) * (1 / g ^ 2 + 1 / (g * lmbd)) with hc
  have hpair : ∀ a ∈ A, ∀ b ∈ B, modulus (yW alpha lmbd a (translate_point d b) • ((translate_point d b).pos - a.pos))
      ≤ |a.mass| * |b.mass| * (|alpha| * BIG_G * c) := by
    intro a ha b hb
    have hx := (pair_far_bound a.pos b.pos d ra rb (hA a ha) (hB b hb) hD).2.1
    rw [← hg] at hx
    rw [modulus_smul]
    simp only [yW, translate_point]
    set X := modulus (b.pos + d - a.pos) with hX
    have hX0 : 0 < X := lt_of_lt_of_le hg0 hx
    have hw : 0 ≤ Real.exp (-X / lmbd) * (1 / X ^ 3 + 1 / (X ^ 2 * lmbd)) := by positivity
    rw [show alpha * BIG_G * a.mass * b.mass * Real.exp (-X / lmbd) * (1 / X ^ 3 + 1 / (X ^ 2 * lmbd))
        = alpha * BIG_G * a.mass * b.mass * (Real.exp (-X / lmbd) * (1 / X ^ 3 + 1 / (X ^ 2 * lmbd))) by ring,
      abs_mul, abs_of_nonneg hw, abs_mul, abs_mul, abs_mul, abs_of_pos hG]
    have hle : Real.exp (-X / lmbd) * (1 / X ^ 3 + 1 / (X ^ 2 * lmbd)) * X ≤ c := by
      have e : Real.exp (-X / lmbd) * (1 / X ^ 3 + 1 / (X ^ 2 * lmbd)) * X = Real.exp (-X / lmbd) * (1 / X ^ 2 + 1 / (X * lmbd)) := by
        field_simp
      rw [e, hc]
      gcongr
    calc |alpha| * BIG_G * |a.mass| * |b.mass| * (Real.exp (-X / lmbd) * (1 / X ^ 3 + 1 / (X ^ 2 * lmbd))) * X
        = |alpha| * BIG_G * |a.mass| * |b.mass| * (Real.exp (-X / lmbd) * (1 / X ^ 3 + 1 / (X ^ 2 * lmbd)) * X) := by ring
      _ ≤ |alpha| * BIG_G * |a.mass| * |b.mass| * c := by gcongr
      _ = _ := by ring
  refine ⟨_, _, pmy_some hl.ne' (apart_far hA hB hD), ?_, ?_⟩
  · rw [totF]
    simp only [translate_point_array, List.map_map, Function.comp_def]
    refine (double_sum_bound A B _ (|alpha| * BIG_G * c) hpair).trans (le_of_eq ?_)
    ring
  · rw [totT_eq]
    simp only [translate_point_array, List.map_map, Function.comp_def]
    refine (double_sum_bound A B _ (ra * (|alpha| * BIG_G * c)) ?_).trans (le_of_eq ?_)
    · intro a ha b hb
      have hr := hA a ha
      have : 0 ≤ ra := (modulus_nonneg _).trans hr
      refine (modulus_cross_le _ _).trans ?_
      calc modulus a.pos * _ ≤ ra * (|a.mass| * |b.mass| * (|alpha| * BIG_G * c)) :=
            mul_le_mul hr (hpair a ha b hb) (modulus_nonneg _) this
        _ = _ := by ring
    · ring

theorem exists_within (A : PtArray) : ∃ r, 0 ≤ r ∧ WithinBall r A := by
  induction A with
  | nil => exact ⟨0, le_rfl, by simp [WithinBall]⟩
  | cons a A ih =>
    obtain ⟨r, h0, h⟩ := ih
    refine ⟨r + modulus a.pos, add_nonneg h0 (modulus_nonneg _), fun p hp => ?_⟩
    rcases List.mem_cons.1 hp with rfl | hp
    · linarith
    · linarith [h p hp, modulus_nonneg a.pos]

theorem abs_le_modulus (v : V3) (i : Fin 3) : |v i| ≤ modulus v := by
  rw [modulus]
  apply Real.abs_le_sqrt
  fin_cases i <;> simp only [Fin.zero_eta, Fin.mk_one, Fin.reduceFinMk] <;> nlinarith [sq_nonneg (v 0), sq_nonneg (v 1), sq_nonneg (v 2)]

theorem tendsto_of_modulus {f : ℝ → V3} {v : V3} {e : ℝ → ℝ} (he : Tendsto e atTop (𝓝 0))
    (h : ∀ᶠ s in atTop, modulus (f s - v) ≤ e s) : Tendsto f atTop (𝓝 v) := by
  rw [tendsto_pi_nhds]
  intro i
  rw [tendsto_iff_dist_tendsto_zero]
  refine squeeze_zero' (Eventually.of_forall fun s => dist_nonneg) (h.mono fun s hs => ?_) he
  rw [Real.dist_eq]
  exact (abs_le_modulus (f s - v) i).trans hs

theorem far_limit (r : ℝ) (c : ℝ) : Tendsto (fun s : ℝ => c * (r * (2 * s - r) / (s - r) ^ 2)) atTop (𝓝 0) := by
  have h1 : Tendsto (fun s : ℝ => s - r) atTop atTop := tendsto_atTop_add_const_right _ _ tendsto_id
  have h2 : Tendsto (fun s : ℝ => (s - r)⁻¹) atTop (𝓝 0) := tendsto_inv_atTop_zero.comp h1
  have h3 : Tendsto (fun s : ℝ => c * r * (2 * (s - r)⁻¹ + r * ((s - r)⁻¹ * (s - r)⁻¹))) atTop (𝓝 (c * r * (2 * 0 + r * (0 * 0)))) :=
    ((h2.const_mul 2).add ((h2.mul h2).const_mul r)).const_mul (c * r)
  rw [show c * r * (2 * 0 + r * (0 * 0)) = 0 by ring] at h3
  refine h3.congr' ?_
  filter_upwards [eventually_gt_atTop r] with s hs
  have : s - r ≠ 0 := by linarith
  field_simp
  ring

/-- C108: the inverse square law: as the second array moves away along the unit vector `n`, the square of the distance times the force
tends to that between the total masses, and times the torque to that of a uniform field on the first moment. -/
theorem C108_inverse_square (A B : PtArray) (n : V3) (hn : modulus n = 1) :
    ∃ F T : ℝ → V3, (∀ᶠ s in atTop, point_matrix_gravity A (translate_point_array B (s • n)) = some (F s, T s)) ∧
      Tendsto (fun s => s ^ 2 • F s) atTop (𝓝 ((BIG_G * totalMass A * totalMass B) • n)) ∧
      Tendsto (fun s => s ^ 2 • T s) atTop (𝓝 ((BIG_G * totalMass B) • crossProduct (firstMoment A) n)) := by
  obtain ⟨ra, ha0, hA⟩ := exists_within A
  obtain ⟨rb, hb0, hB⟩ := exists_within B
  have hms : ∀ s : ℝ, 0 < s → modulus (s • n) = s := fun s hs => by rw [modulus_smul, hn, abs_of_pos hs, mul_one]
  have h0 : 0 ≤ ra + rb := add_nonneg ha0 hb0
  refine ⟨fun s => totF gW A (translate_point_array B (s • n)), fun s => totT gW A (translate_point_array B (s • n)), ?_, ?_, ?_⟩
  · filter_upwards [eventually_gt_atTop (ra + rb)] with s hs
    exact pmg_some (apart_far hA hB (by rw [hms s (by linarith)]; exact hs))
  · refine tendsto_of_modulus (far_limit (ra + rb) (BIG_G * absMass A * absMass B)) ?_
    filter_upwards [eventually_gt_atTop (ra + rb)] with s hs
    have hs0 : 0 < s := by linarith
    have hD : ra + rb < modulus (s • n) := by rw [hms s hs0]; exact hs
    obtain ⟨F, T, e, h1, -⟩ := C108_far A B (s • n) ra rb hA hB h0 hD
    rw [pmg_some (apart_far hA hB hD), Option.some.injEq, Prod.mk.injEq] at e
    rw [e.1]
    rw [hms s hs0] at h1
    have e2 : s ^ 2 • F - (BIG_G * totalMass A * totalMass B) • n
        = s ^ 2 • (F - (BIG_G * totalMass A * totalMass B / s ^ 3) • s • n) := by
      rw [smul_sub, smul_smul, smul_smul]
      congr 2
      field_simp
    rw [e2, modulus_smul, abs_of_pos (by positivity)]
    refine (mul_le_mul_of_nonneg_left h1 (by positivity)).trans (le_of_eq ?_)
    have : s - (ra + rb) ≠ 0 := by linarith
    field_simp
  · refine tendsto_of_modulus (far_limit (ra + rb) (ra * (BIG_G * absMass A * absMass B))) ?_
    filter_upwards [eventually_gt_atTop (ra + rb)] with s hs
    have hs0 : 0 < s := by linarith
    have hD : ra + rb < modulus (s • n) := by rw [hms s hs0]; exact hs
    obtain ⟨F, T, e, -, h1⟩ := C108_far A B (s • n) ra rb hA hB h0 hD
    rw [pmg_some (apart_far hA hB hD), Option.some.injEq, Prod.mk.injEq] at e
    rw [e.2]
    rw [hms s hs0] at h1
    have e2 : s ^ 2 • T - (BIG_G * totalMass B) • crossProduct (firstMoment A) n
        = s ^ 2 • (T - (BIG_G * totalMass B / s ^ 3) • crossProduct (firstMoment A) (s • n)) := by
      rw [map_smul, smul_sub, smul_smul, smul_smul]
      congr 2
      field_simp
    rw [e2, modulus_smul, abs_of_pos (by positivity)]
    refine (mul_le_mul_of_nonneg_left h1 (by positivity)).trans (le_of_eq ?_)
    have : s - (ra + rb) ≠ 0 := by linarith
    field_simp

theorem exp_limit (k : ℕ) (lmbd r c : ℝ) (hl : 0 < lmbd) :
    Tendsto (fun s : ℝ => c * (s ^ k * Real.exp (-(s - r) / lmbd))) atTop (𝓝 0) := by
  have h1 : Tendsto (fun s : ℝ => s / lmbd) atTop atTop := tendsto_id.atTop_div_const hl
  have h2 := (Real.tendsto_pow_mul_exp_neg_atTop_nhds_zero k).comp h1
  have h3 := h2.const_mul (c * lmbd ^ k * Real.exp (r / lmbd))
  rw [mul_zero] at h3
  refine h3.congr fun s => ?_
  simp only [Function.comp]
  rw [show -(s - r) / lmbd = r / lmbd + -(s / lmbd) by ring, Real.exp_add, div_pow]
  field_simp

/-- C108: the Yukawa force and torque vanish faster than any power of the distance. -/
theorem C108_yukawa_decay (A B : PtArray) (n : V3) (hn : modulus n = 1) (alpha lmbd : ℝ) (hl : 0 < lmbd) (k : ℕ) :
    ∃ F T : ℝ → V3, (∀ᶠ s in atTop, point_matrix_yukawa A (translate_point_array B (s • n)) alpha lmbd = some (F s, T s)) ∧
      Tendsto (fun s => s ^ k • F s) atTop (𝓝 0) ∧ Tendsto (fun s => s ^ k • T s) atTop (𝓝 0) := by
  obtain ⟨ra, ha0, hA⟩ := exists_within A
  obtain ⟨rb, hb0, hB⟩ := exists_within B
  have hms : ∀ s : ℝ, 0 < s → modulus (s • n) = s := fun s hs => by rw [modulus_smul, hn, abs_of_pos hs, mul_one]
  have h0 : 0 ≤ ra + rb := add_nonneg ha0 hb0
  have hG := BIG_G_pos
  have hAm : 0 ≤ absMass A := List.sum_nonneg fun x hx => by obtain ⟨p, _, rfl⟩ := List.mem_map.1 hx; exact abs_nonneg _
  have hBm : 0 ≤ absMass B := List.sum_nonneg fun x hx => by obtain ⟨p, _, rfl⟩ := List.mem_map.1 hx; exact abs_nonneg _
  have key : ∀ s, ra + rb + 1 ≤ s → ∃ F T, point_matrix_yukawa A (translate_point_array B (s • n)) alpha lmbd = some (F, T) ∧
      modulus F ≤ |alpha| * BIG_G * absMass A * absMass B * (1 + 1 / lmbd) * Real.exp (-(s - (ra + rb)) / lmbd) ∧
      modulus T ≤ ra * (|alpha| * BIG_G * absMass A * absMass B * (1 + 1 / lmbd)) * Real.exp (-(s - (ra + rb)) / lmbd) := by
    intro s hs
    have hs0 : 0 < s := by linarith
    have hD : ra + rb < modulus (s • n) := by rw [hms s hs0]; linarith
    obtain ⟨F, T, e, h1, h2⟩ := C108_yukawa_far A B (s • n) ra rb alpha lmbd hl hA hB h0 hD
    rw [hms s hs0] at h1 h2
    have hg : 1 ≤ s - (ra + rb) := by linarith
    have hle : Real.exp (-(s - (ra + rb)) / lmbd) * (1 / (s - (ra + rb)) ^ 2 + 1 / ((s - (ra + rb)) * lmbd))
        ≤ (1 + 1 / lmbd) * Real.exp (-(s - (ra + rb)) / lmbd) := by
      rw [mul_comm]
      apply mul_le_mul_of_nonneg_right _ (Real.exp_pos _).le
      apply add_le_add
      · rw [div_le_one (by positivity)]; nlinarith
      · apply one_div_le_one_div_of_le hl; nlinarith
    have hc : 0 ≤ |alpha| * BIG_G * absMass A * absMass B := by positivity
    refine ⟨F, T, e, h1.trans ((mul_le_mul_of_nonneg_left hle hc).trans (le_of_eq (by ring))),
      h2.trans ((mul_le_mul_of_nonneg_left (mul_le_mul_of_nonneg_left hle hc) ha0).trans (le_of_eq (by ring)))⟩
  refine ⟨fun s => totF (yW alpha lmbd) A (translate_point_array B (s • n)), fun s => totT (yW alpha lmbd) A (translate_point_array B (s • n)), ?_, ?_, ?_⟩
  · filter_upwards [eventually_ge_atTop (ra + rb + 1)] with s hs
    exact pmy_some hl.ne' (apart_far hA hB (by rw [hms s (by linarith)]; linarith))
  · refine tendsto_of_modulus (exp_limit k lmbd (ra + rb) (|alpha| * BIG_G * absMass A * absMass B * (1 + 1 / lmbd)) hl) ?_
    filter_upwards [eventually_ge_atTop (ra + rb + 1)] with s hs
    have hs0 : 0 < s := by linarith
    obtain ⟨F, T, e, h1, -⟩ := key s hs
    rw [pmy_some hl.ne' (apart_far hA hB (by rw [hms s (by linarith)]; linarith)), Option.some.injEq, Prod.mk.injEq] at e
    rw [e.1, sub_zero, modulus_smul, abs_of_pos (by positivity)]
    exact (mul_le_mul_of_nonneg_left h1 (by positivity)).trans (le_of_eq (by ring))
  · refine tendsto_of_modulus (exp_limit k lmbd (ra + rb) (ra * (|alpha| * BIG_G * absMass A * absMass B * (1 + 1 / lmbd))) hl) ?_
    filter_upwards [eventually_ge_atTop (ra + rb + 1)] with s hs
    have hs0 : 0 < s := by linarith
    obtain ⟨F, T, e, -, h1⟩ := key s hs
    rw [pmy_some hl.ne' (apart_far hA hB (by rw [hms s (by linarith)]; linarith)), Option.some.injEq, Prod.mk.injEq] at e
    rw [e.2, sub_zero, modulus_smul, abs_of_pos (by positivity)]
    exact (mul_le_mul_of_nonneg_left h1 (by positivity)).trans (le_of_eq (by ring))

/-- The hypotheses are met: a dipole of unit radius, its copy ten units away along `z`. -/
example : WithinBall 1 [⟨1, ![1, 0, 0]⟩, ⟨2, ![-1, 0, 0]⟩] ∧ (1 : ℝ) + 1 < modulus ![0, 0, 10] ∧ modulus ![0, 0, 1] = 1 := by
  refine ⟨?_, ?_, ?_⟩
  · intro p hp
    simp only [List.mem_cons, List.not_mem_nil, or_false] at hp
    rcases hp with rfl | rfl <;> simp [modulus]
  · have : modulus ![0, 0, 10] = 10 := by
      rw [modulus]; simp
    rw [this]; norm_num
  · simp [modulus]

end Newt
