import Verif.Spec.Tolerance
import Verif.Props.FarField
import Verif.Props.Rounding

/-!
# C114: sensitivity to the positions, and rounding of translated arrays
-/

namespace Newt

open Spec

theorem pair_displaced (x e : V3) (s : ℝ) (he : modulus e ≤ s) (hs : s < modulus x) :
    x + e ≠ 0 ∧ modulus x - s ≤ modulus (x + e) ∧
    modulus ((1 / modulus (x + e) ^ 3) • (x + e) - (1 / modulus x ^ 3) • x) ≤ s * (2 * modulus x - s) / (modulus x ^ 2 * (modulus x - s) ^ 2) := by
  have h := pair_far_bound (-e) 0 x s 0 (by rwa [modulus_neg]) (by rw [(modulus_eq_zero 0).2 rfl]) (by linarith)
  rw [zero_add, sub_neg_eq_add, add_zero] at h
  exact h

theorem far_anti {s D D' : ℝ} (hs : 0 ≤ s) (hD : s < D) (h : D ≤ D') :
    s * (2 * D' - s) / (D' ^ 2 * (D' - s) ^ 2) ≤ s * (2 * D - s) / (D ^ 2 * (D - s) ^ 2) := by
  have e : ∀ x, s < x → s * (2 * x - s) / (x ^ 2 * (x - s) ^ 2) = s * ((1 / x) * (1 / (x - s)) * (1 / (x - s) + 1 / x)) := by
    intro x hx
    have h1 : x ≠ 0 := by linarith
    have h2 : x - s ≠ 0 := by linarith
    field_simp
    ring
  rw [e D hD, e D' (by linarith)]
  have h1 : 1 / D' ≤ 1 / D := one_div_le_one_div_of_le (by linarith) h
  have h2 : 1 / (D' - s) ≤ 1 / (D - s) := one_div_le_one_div_of_le (by linarith) (by linarith)
  have h3 : 0 < D' - s := by linarith
  have h4 : 0 < D' := by linarith
  have h5 : 0 < D := by linarith
  have h6 : 0 < D - s := by linarith
  gcongr

theorem double_bound {α β : Type*} (A : List α) (B : List β) (f : α → β → V3) (v : α → ℝ) (w : β → ℝ) (c : ℝ)
    (h : ∀ a ∈ A, ∀ b ∈ B, modulus (f a b) ≤ v a * w b * c) : modulus (A.map fun a => (B.map fun b => f a b).sum).sum ≤ (A.map v).sum * (B.map w).sum * c := by
  refine (modulus_sum_le _).trans ?_
  rw [List.map_map, ← List.sum_map_mul_right, ← List.sum_map_mul_right]
  apply List.sum_le_sum
  intro a ha
  refine (modulus_sum_le _).trans ?_
  rw [List.map_map, ← List.sum_map_mul_left, ← List.sum_map_mul_right]
  apply List.sum_le_sum
  intro b hb
  exact (h a ha b hb).trans (le_of_eq (by ring))

theorem sub_list {γ : Type*} (l : List γ) (u w : γ → V3) : (l.map u).sum - (l.map w).sum = (l.map fun b => u b - w b).sum := by
  induction l with
  | nil => simp
  | cons b l ih => simp only [List.map_cons, List.sum_cons, ← ih]; abel

theorem sub_double {α β : Type*} (A : List α) (B : List β) (f g : α → β → V3) :
    (A.map fun a => (B.map fun b => f a b).sum).sum - (A.map fun a => (B.map fun b => g a b).sum).sum
      = (A.map fun a => (B.map fun b => f a b - g a b).sum).sum := by
  rw [sub_list]
  congr 1
  apply List.map_congr_left
  intro a _
  rw [sub_list]

theorem cross_sum_right {β : Type*} (a : V3) (B : List β) (f : β → V3) : crossProduct a (B.map f).sum = (B.map fun b => crossProduct a (f b)).sum := by
  induction B with
  | nil => simp
  | cons b B ih => simp only [List.map_cons, List.sum_cons, map_add, ih]

/-- C114: displacing the points of the two arrays by at most `sa` and `sb` (together less than the smallest distance `D` between them) keeps
`point_matrix_gravity` defined and changes the force by at most `G sum|m| sum|m'| s(2D-s)/(D^2(D-s)^2)`, `s = sa + sb`, and the torque by at
most `ra` times that plus `sa` times the largest possible force, `ra` bounding the distance of the first array from the origin. -/
theorem C114_tolerance (P Q : List (Pt × V3)) (sa sb ra D : ℝ) (hP : ∀ p ∈ P, modulus p.2 ≤ sa ∧ modulus p.1.pos ≤ ra) (hQ : ∀ q ∈ Q, modulus q.2 ≤ sb)
    (h0 : 0 ≤ sa + sb) (hD : sa + sb < D) (hPQ : ∀ p ∈ P, ∀ q ∈ Q, D ≤ modulus (q.1.pos - p.1.pos)) :
    ∃ F T F' T', point_matrix_gravity (nominal P) (nominal Q) = some (F, T) ∧ point_matrix_gravity (displaced P) (displaced Q) = some (F', T') ∧
      modulus (F' - F) ≤ BIG_G * absMass (nominal P) * absMass (nominal Q) * ((sa + sb) * (2 * D - (sa + sb)) / (D ^ 2 * (D - (sa + sb)) ^ 2)) ∧
      modulus (T' - T) ≤ BIG_G * absMass (nominal P) * absMass (nominal Q) *
        (ra * ((sa + sb) * (2 * D - (sa + sb)) / (D ^ 2 * (D - (sa + sb)) ^ 2)) + sa / (D - (sa + sb)) ^ 2) := by
  have hG := BIG_G_pos
  set s := sa + sb with hs
  set c := s * (2 * D - s) / (D ^ 2 * (D - s) ^ 2) with hc
  have hDs : 0 < D - s := by linarith
  have hc0 : 0 ≤ c := far_bound_pos h0 hD
  have hdisp : ∀ p ∈ P, ∀ q ∈ Q, modulus (q.2 - p.2) ≤ s := by
    intro p hp q hq
    rw [sub_eq_add_neg]
    refine (modulus_add_le _ _).trans ?_
    rw [modulus_neg]
    linarith [(hP p hp).1, hQ q hq]
  have hex : ∀ p q : Pt × V3, q.1.pos + q.2 - (p.1.pos + p.2) = (q.1.pos - p.1.pos) + (q.2 - p.2) := fun p q => by abel
  have key := fun p hp q hq => pair_displaced (q.1.pos - p.1.pos) (q.2 - p.2) s (hdisp p hp q hq) (lt_of_lt_of_le hD (hPQ p hp q hq))
  have a1 : Apart (nominal P) (nominal Q) := by
    intro a ha b hb e
    obtain ⟨p, hp, rfl⟩ := List.mem_map.1 ha
    obtain ⟨q, hq, rfl⟩ := List.mem_map.1 hb
    have := hPQ p hp q hq
    rw [(modulus_eq_zero _).2 (by rw [e, sub_self])] at this
    linarith
  have a2 : Apart (displaced P) (displaced Q) := by
    intro a ha b hb e
    obtain ⟨p, hp, rfl⟩ := List.mem_map.1 ha
    obtain ⟨q, hq, rfl⟩ := List.mem_map.1 hb
    refine (key p hp q hq).1 ?_
    rw [← hex]
    simp only at e
    rw [e, sub_self]
  -- the pair forces
  let f : Pt × V3 → Pt × V3 → V3 := fun p q => gW p.1 q.1 • (q.1.pos - p.1.pos)
  let g : Pt × V3 → Pt × V3 → V3 := fun p q => gW ⟨p.1.mass, p.1.pos + p.2⟩ ⟨q.1.mass, q.1.pos + q.2⟩ • (q.1.pos + q.2 - (p.1.pos + p.2))
  have hf : ∀ p q, f p q = (BIG_G * p.1.mass * q.1.mass) • ((1 / modulus (q.1.pos - p.1.pos) ^ 3) • (q.1.pos - p.1.pos)) := by
    intro p q
    simp only [f, gW]
    rw [smul_smul]; congr 1; ring
  have hg : ∀ p q, g p q = (BIG_G * p.1.mass * q.1.mass) •
      ((1 / modulus (q.1.pos - p.1.pos + (q.2 - p.2)) ^ 3) • (q.1.pos - p.1.pos + (q.2 - p.2))) := by
    intro p q
    simp only [g, gW, hex]
    rw [smul_smul]; congr 1; ring
  have hfg : ∀ p ∈ P, ∀ q ∈ Q, modulus (g p q - f p q) ≤ |p.1.mass| * |q.1.mass| * (BIG_G * c) := by
    intro p hp q hq
    rw [hf, hg, ← smul_sub, modulus_smul, abs_mul, abs_mul, abs_of_pos hG]
    calc BIG_G * |p.1.mass| * |q.1.mass| * _ ≤ BIG_G * |p.1.mass| * |q.1.mass| * c := by
          gcongr
          exact (key p hp q hq).2.2.trans (far_anti h0 hD (hPQ p hp q hq))
      _ = _ := by ring
  have hg2 : ∀ p ∈ P, ∀ q ∈ Q, modulus (g p q) ≤ |p.1.mass| * |q.1.mass| * (BIG_G * (1 / (D - s) ^ 2)) := by
    intro p hp q hq
    obtain ⟨hne, hle, -⟩ := key p hp q hq
    have h1 := hPQ p hp q hq
    rw [hg, modulus_smul, modulus_smul, abs_mul, abs_mul, abs_of_pos hG]
    set r := modulus (q.1.pos - p.1.pos + (q.2 - p.2)) with hr
    have hr0 : D - s ≤ r := by linarith
    have hr1 : 0 < r := by linarith
    rw [abs_of_pos (by positivity : 0 < 1 / r ^ 3)]
    calc BIG_G * |p.1.mass| * |q.1.mass| * (1 / r ^ 3 * r) = |p.1.mass| * |q.1.mass| * (BIG_G * (1 / r ^ 2)) := by field_simp
      _ ≤ _ := by gcongr
  have eM : ∀ L : List (Pt × V3), absMass (nominal L) = (L.map fun p => |p.1.mass|).sum := by
    intro L
    rw [absMass, nominal, List.map_map]; rfl
  refine ⟨_, _, _, _, pmg_some a1, pmg_some a2, ?_, ?_⟩
  · have e1 : totF gW (nominal P) (nominal Q) = (P.map fun p => (Q.map fun q => f p q).sum).sum := by
      simp only [totF, nominal, List.map_map]; rfl
    have e2 : totF gW (displaced P) (displaced Q) = (P.map fun p => (Q.map fun q => g p q).sum).sum := by
      simp only [totF, displaced, List.map_map]; rfl
    rw [e1, e2, sub_double, eM, eM]
    refine (double_bound P Q _ _ _ (BIG_G * c) hfg).trans (le_of_eq ?_)
    ring
  · have e1 : totT gW (nominal P) (nominal Q) = (P.map fun p => (Q.map fun q => crossProduct p.1.pos (f p q)).sum).sum := by
      simp only [totT_eq, nominal, List.map_map]; rfl
    have e2 : totT gW (displaced P) (displaced Q) = (P.map fun p => (Q.map fun q => crossProduct (p.1.pos + p.2) (g p q)).sum).sum := by
      simp only [totT_eq, displaced, List.map_map]; rfl
    rw [e1, e2, sub_double, eM, eM]
    refine (double_bound P Q _ (fun p => |p.1.mass|) (fun q => |q.1.mass|) (BIG_G * (ra * c + sa / (D - s) ^ 2)) ?_).trans (le_of_eq (by ring))
    intro p hp q hq
    have e3 : crossProduct (p.1.pos + p.2) (g p q) - crossProduct p.1.pos (f p q) = crossProduct p.1.pos (g p q - f p q) + crossProduct p.2 (g p q) := by
      simp only [map_add, LinearMap.add_apply, map_sub]; abel
    rw [e3]
    have h1 := (hP p hp).2
    have h2 := (hP p hp).1
    have hra : 0 ≤ ra := (modulus_nonneg _).trans h1
    have hsa : 0 ≤ sa := (modulus_nonneg _).trans h2
    calc _ ≤ modulus p.1.pos * modulus (g p q - f p q) + modulus p.2 * modulus (g p q) :=
          (modulus_add_le _ _).trans (add_le_add (modulus_cross_le _ _) (modulus_cross_le _ _))
      _ ≤ ra * (|p.1.mass| * |q.1.mass| * (BIG_G * c)) + sa * (|p.1.mass| * |q.1.mass| * (BIG_G * (1 / (D - s) ^ 2))) :=
          add_le_add (mul_le_mul h1 (hfg p hp q hq) (modulus_nonneg _) hra) (mul_le_mul h2 (hg2 p hp q hq) (modulus_nonneg _) hsa)
      _ = _ := by ring

/-! ## Translations in floating point arithmetic -/

/-- The rounded translation is the exact one with every point displaced by at most `u` times its distance from the origin. -/
theorem C114_translate {u : ℝ} (h0 : 0 ≤ u) (B B' : PtArray) (d : V3) (h : Flt.translate_point_array u B d B') :
    ∃ Q : List (Pt × V3), nominal Q = translate_point_array B d ∧ displaced Q = B' ∧ ∀ q ∈ Q, modulus q.2 ≤ u * modulus q.1.pos := by
  unfold Flt.translate_point_array at h
  induction h with
  | nil => exact ⟨[], rfl, rfl, by simp⟩
  | @cons p p' B B' hp _ ih =>
    obtain ⟨Q, e1, e2, hq⟩ := ih
    refine ⟨(translate_point d p, p'.pos - (p.pos + d)) :: Q, ?_, ?_, ?_⟩
    · simp only [nominal, translate_point_array, List.map_cons] at e1 ⊢; rw [e1]
    · simp only [displaced, List.map_cons] at e2 ⊢
      rw [e2]
      congr 1
      cases p'
      simp only [translate_point, add_sub_cancel] at hp ⊢
      rw [hp.1]
    · intro q hm
      rcases List.mem_cons.1 hm with rfl | hm
      · have hc : ∀ i, |(p'.pos - (p.pos + d)) i| ≤ u * |(p.pos + d) i| := hp.2
        have e : modulus (p'.pos - (p.pos + d)) ^ 2 ≤ (u * modulus (p.pos + d)) ^ 2 := by
          rw [mul_pow, modulus_sq3, modulus_sq3]
          have k : ∀ i, (p'.pos - (p.pos + d)) i ^ 2 ≤ u ^ 2 * (p.pos + d) i ^ 2 := by
            intro i
            have := pow_le_pow_left₀ (abs_nonneg _) (hc i) 2
            rwa [sq_abs, mul_pow, sq_abs] at this
          linarith [k 0, k 1, k 2]
        exact abs_le_of_sq_le_sq' e (mul_nonneg h0 (modulus_nonneg _)) |>.2
      · exact hq q hm

/-- C114: translating in floating point and computing the force in floating point: the total error is that of C112 (for the array that was actually
reached) plus the effect of points misplaced by `u` times their distance `R` from the origin.  Far from the origin this second part dominates. -/
theorem C114_pipeline {u : ℝ} (h0 : 0 ≤ u) (h1 : u < 1) (A B B' : PtArray) (d : V3) (R D : ℝ) (hR : ∀ b ∈ B, modulus (b.pos + d) ≤ R) (hR0 : 0 ≤ R)
    (hD : u * R < D) (hAB : ∀ a ∈ A, ∀ b ∈ B, D ≤ modulus (b.pos + d - a.pos)) (ht : Flt.translate_point_array u B d B') (F T : V3)
    (h : Flt.point_matrix_gravity u A B' F T) :
    ∃ f t, point_matrix_gravity A (translate_point_array B d) = some (f, t) ∧ ∀ i, |F i - f i| ≤ relErr u (18 + A.length + B.length) * grossForce A B' i +
      BIG_G * absMass A * absMass B * (u * R * (2 * D - u * R) / (D ^ 2 * (D - u * R) ^ 2)) := by
  obtain ⟨Q, e1, e2, hq⟩ := C114_translate h0 B B' d ht
  have eA : nominal (A.map fun a => (a, (0 : V3))) = A := by
    simp [nominal, Function.comp_def]
  have eA' : displaced (A.map fun a => (a, (0 : V3))) = A := by
    simp [displaced, Function.comp_def]
  have hmem : ∀ q ∈ Q, q.1 ∈ translate_point_array B d := fun q hm => by rw [← e1]; exact List.mem_map_of_mem hm
  obtain ⟨ra, hra0, hra⟩ := exists_within A
  obtain ⟨f, t, f', t', g1, g2, g3, -⟩ := C114_tolerance (A.map fun a => (a, 0)) Q 0 (u * R) ra D
    (fun p hp => by
      obtain ⟨a, ha, rfl⟩ := List.mem_map.1 hp
      exact ⟨by rw [(modulus_eq_zero 0).2 rfl], hra a ha⟩)
    (fun q hm => by
      refine (hq q hm).trans (mul_le_mul_of_nonneg_left ?_ h0)
      obtain ⟨b, hb, e⟩ := List.mem_map.1 (hmem q hm)
      rw [← e]; exact hR b hb)
    (by positivity) (by linarith) (fun p hp q hm => by
      obtain ⟨a, ha, rfl⟩ := List.mem_map.1 hp
      obtain ⟨b, hb, e⟩ := List.mem_map.1 (hmem q hm)
      rw [← e]; exact hAB a ha b hb)
  rw [eA, e1] at g1
  rw [eA', e2] at g2
  obtain ⟨f2, t2, g4, g5⟩ := C112_gravity h0 h1 A B' F T h
  rw [g2, Option.some.injEq, Prod.mk.injEq] at g4
  obtain ⟨rfl, rfl⟩ := g4
  have hlen : B'.length = B.length := by
    have := congrArg List.length e1
    rw [← e2]
    simpa [nominal, displaced, translate_point_array] using this
  have hM : absMass (translate_point_array B d) = absMass B := by
    rw [absMass, absMass, translate_point_array, List.map_map]; rfl
  rw [eA, e1, hM, zero_add] at g3
  refine ⟨f, t, g1, fun i => ?_⟩
  have k1 := (g5 i).1
  rw [hlen] at k1
  have k2 := (abs_le_modulus (f' - f) i).trans g3
  rw [Pi.sub_apply] at k2
  calc |F i - f i| = |(F i - f' i) + (f' i - f i)| := by ring_nf
    _ ≤ |F i - f' i| + |f' i - f i| := abs_add_le _ _
    _ ≤ _ := add_le_add k1 k2

/-- Instance: two points ten apart, one of them off by at most 0.1. -/
example : ∃ F T F' T', point_matrix_gravity [⟨1, ![0, 0, 0]⟩] [⟨2, ![10, 0, 0]⟩] = some (F, T) ∧
    point_matrix_gravity [⟨1, ![0, 0, 0]⟩] [⟨2, ![10, 0, 0] + ![0, 0.1, 0]⟩] = some (F', T') ∧ modulus (F' - F) ≤ BIG_G * 0.0042 := by
  have m10 : modulus ![10, 0, 0] = 10 := by
    rw [modulus, Real.sqrt_eq_iff_mul_self_eq_of_pos (by norm_num)]; simp; norm_num
  have m01 : modulus ![0, 0.1, 0] = 0.1 := by
    rw [modulus, Real.sqrt_eq_iff_mul_self_eq_of_pos (by norm_num)]; simp; norm_num
  have m0 : modulus ![0, 0, 0] = 0 := by rw [modulus]; simp
  obtain ⟨F, T, F', T', h1, h2, h3, -⟩ := C114_tolerance [(⟨1, ![0, 0, 0]⟩, 0)] [(⟨2, ![10, 0, 0]⟩, ![0, 0.1, 0])] 0 0.1 0 10
    (by
      intro p hp
      rw [List.mem_singleton] at hp
      subst hp
      exact ⟨by rw [(modulus_eq_zero 0).2 rfl], by rw [m0]⟩)
    (by
      intro p hp
      rw [List.mem_singleton] at hp
      subst hp
      rw [m01])
    (by norm_num) (by norm_num)
    (by
      intro p hp q hq
      rw [List.mem_singleton] at hp hq
      subst hp hq
      have e : (![10, 0, 0] : V3) - ![0, 0, 0] = ![10, 0, 0] := by funext i; fin_cases i <;> simp
      rw [e, m10])
  simp only [displaced, List.map_cons, List.map_nil, add_zero] at h2
  refine ⟨F, T, F', T', h1, h2, h3.trans ?_⟩
  have hG := BIG_G_pos
  simp only [absMass, nominal, List.map_cons, List.map_nil, List.sum_cons, List.sum_nil]
  norm_num
  nlinarith

/-- For every rounding rule the rounded translation has a result. -/
theorem C114_translate_exists {u : ℝ} (rnd : ℝ → ℝ) (hrnd : ∀ x, Flt.Rd u x (rnd x)) (B : PtArray) (d : V3) :
    Flt.translate_point_array u B d (B.map fun p => ⟨p.mass, fun i => rnd (p.pos i + d i)⟩) := by
  rw [Flt.translate_point_array, List.forall₂_map_right_iff, List.forall₂_same]
  exact fun p _ => ⟨rfl, fun i => hrnd _⟩

/-- Instance: a double precision translation by 1000 followed by a double precision force. -/
example : ∃ (B' : PtArray) (F T f t : V3), Flt.translate_point_array ((2 : ℝ)⁻¹ ^ 53) [⟨2, ![1, 0, 0]⟩] ![1000, 0, 0] B' ∧
    Flt.point_matrix_gravity ((2 : ℝ)⁻¹ ^ 53) [⟨1, ![0, 0, 0]⟩] B' F T ∧
    point_matrix_gravity [⟨1, ![0, 0, 0]⟩] (translate_point_array [⟨2, ![1, 0, 0]⟩] ![1000, 0, 0]) = some (f, t) ∧
    ∀ i, |F i - f i| ≤ relErr ((2 : ℝ)⁻¹ ^ 53) 20 * grossForce [⟨1, ![0, 0, 0]⟩] B' i +
      BIG_G * 1 * 2 * ((2 : ℝ)⁻¹ ^ 53 * 1001 * (2 * 1001 - (2 : ℝ)⁻¹ ^ 53 * 1001) / (1001 ^ 2 * (1001 - (2 : ℝ)⁻¹ ^ 53 * 1001) ^ 2)) := by
  have hu0 : (0 : ℝ) ≤ (2 : ℝ)⁻¹ ^ 53 := by positivity
  have hu1 : (2 : ℝ)⁻¹ ^ 53 < 1 := by norm_num
  have e1 : (![1, 0, 0] : V3) + ![1000, 0, 0] = ![1001, 0, 0] := by funext i; fin_cases i <;> simp; norm_num
  have e2 : (![1001, 0, 0] : V3) - ![0, 0, 0] = ![1001, 0, 0] := by funext i; fin_cases i <;> simp
  have m1 : modulus ![1001, 0, 0] = 1001 := by
    rw [modulus, Real.sqrt_eq_iff_mul_self_eq_of_pos (by norm_num)]; simp; norm_num
  have ht := C114_translate_exists (binRound 53) (C112_binary 53) [⟨2, ![1, 0, 0]⟩] ![1000, 0, 0]
  have hA : Apart [⟨1, ![0, 0, 0]⟩] (([⟨2, ![1, 0, 0]⟩] : PtArray).map fun p => ⟨p.mass, fun i => binRound 53 (p.pos i + ![1000, 0, 0] i)⟩) := by
    intro a ha b hb e
    rw [List.mem_singleton] at ha
    simp only [List.map_cons, List.map_nil, List.mem_singleton] at hb
    subst ha hb
    have h0 := congrFun e 0
    have hr := C112_binary 53 (1 + 1000)
    simp only [Matrix.cons_val] at h0
    rw [← h0, Flt.Rd] at hr
    norm_num at hr
  obtain ⟨F, T, h⟩ := (C112_defined hu0 hu1 (binRound 53) (C112_binary 53) _ _).2 ⟨_, _, pmg_some hA⟩
  obtain ⟨f, t, e, hb⟩ := C114_pipeline hu0 hu1 _ _ _ _ 1001 1001 (by
    intro b hb
    rw [List.mem_singleton] at hb
    subst hb
    rw [e1, m1]) (by norm_num) (by norm_num) (by
    intro a ha b hb
    rw [List.mem_singleton] at ha hb
    subst ha hb
    rw [e1, e2, m1]) ht F T h
  refine ⟨_, F, T, f, t, ht, h, e, fun i => ?_⟩
  simpa [absMass] using hb i

end Newt
