import Verif.Props.Tolerance
import Verif.Proofs.GlibRot

/-!
# C120: rotations in floating point arithmetic
-/

namespace Newt

open Spec

namespace Flt

variable {u : ℝ}

/-- The computed unit vector: four roundings in each component. -/
theorem near_unit (h0 : 0 ≤ u) (h1 : u < 1) {v n : V3} (h : Unit u v n) (i : Fin 3) : Near u 4 (unitOf v i) (n i) := by
  obtain ⟨s, r, hs, hr, -, hn⟩ := h
  obtain ⟨θ, ht, e⟩ := dot_near h0 h1 hs
  rw [Finset.card_univ, Fintype.card_fin] at ht
  have n1 : Near u 4 (v 0 ^ 2 + v 1 ^ 2 + v 2 ^ 2) s := by
    have k : ∀ i, Near u 4 (v i ^ 2) (θ i * (v i * v i)) := fun i =>
      near_mono h0 h1 (by norm_num) ⟨θ i, by ring, (ht i).1, (ht i).2⟩
    rw [e, Fin.sum_univ_three]
    exact near_add h0 h1 (by positivity) (sq_nonneg _) (near_add h0 h1 (sq_nonneg _) (sq_nonneg _) (k 0) (k 1)) (k 2)
  have n2 : Near u 3 (modulus v) r := near_rd h0 h1 (near_sqrt h0 h1 (k := 2) (by positivity) n1) hr
  have n3 := near_rd h0 h1 (near_div h1 (near_refl h0 h1 0 (v i)) n2) (hn i)
  exact n3

/-- The computed norm vanishes exactly for the zero vector. -/
theorem norm_zero (h0 : 0 ≤ u) (h1 : u < 1) {v : V3} {s r : ℝ} (hs : Dot u v v Finset.univ s) (hr : Rd u (Real.sqrt s) r) : r = 0 ↔ v = 0 := by
  obtain ⟨θ, ht, e⟩ := dot_near h0 h1 hs
  rw [Finset.card_univ, Fintype.card_fin] at ht
  have n1 : Near u 4 (v 0 ^ 2 + v 1 ^ 2 + v 2 ^ 2) s := by
    have k : ∀ i, Near u 4 (v i ^ 2) (θ i * (v i * v i)) := fun i =>
      near_mono h0 h1 (by norm_num) ⟨θ i, by ring, (ht i).1, (ht i).2⟩
    rw [e, Fin.sum_univ_three]
    exact near_add h0 h1 (by positivity) (sq_nonneg _) (near_add h0 h1 (sq_nonneg _) (sq_nonneg _) (k 0) (k 1)) (k 2)
  obtain ⟨φ, e, a, -⟩ : Near u 3 (modulus v) r := near_rd h0 h1 (near_sqrt h0 h1 (k := 2) (by positivity) n1) hr
  have hp : φ ≠ 0 := (lt_of_lt_of_le (pow_pos (by linarith : 0 < 1 - u) _) a).ne'
  rw [e, mul_eq_zero, or_iff_right hp, modulus_eq_zero]

theorem near_rotW (h0 : 0 ≤ u) (h1 : u < 1) {v n : V3} (h : ∀ i, Near u 4 (v i) (n i)) (i j : Fin 3) : Near u 4 (rotW v i j) (rotW n i j) := by
  have hneg : ∀ i, Near u 4 (-v i) (-n i) := fun i => by
    obtain ⟨θ, e, a, b⟩ := h i
    exact ⟨θ, by rw [e]; ring, a, b⟩
  fin_cases i <;> fin_cases j <;> simp [rotW] <;> first | exact h _ | exact hneg _ | exact near_refl h0 h1 4 0

theorem near_abs {k : ℕ} {x y : ℝ} (h1 : u < 1) (h : Near u k x y) : ∃ θ, y = θ * x ∧ |θ - 1| ≤ relErr u k := by
  obtain ⟨θ, e, a, b⟩ := h
  refine ⟨θ, e, ?_⟩
  have := near_err h1 (⟨θ, rfl, a, b⟩ : Near u k 1 (θ * 1))
  simpa using this

/-- One entry of the computed matrix times a coordinate, with all roundings counted. -/
theorem entry_err (h0 : 0 ≤ u) (h1 : u < 1) {theta : ℝ} {v n : V3} {R : Matrix (Fin 3) (Fin 3) ℝ} (hn : ∀ i, Near u 4 (v i) (n i)) (hR : RotMatrix u theta n R)
    {θ : ℝ} (ht : (1 - u) ^ 3 ≤ θ ∧ θ ≤ ((1 - u) ^ 3)⁻¹) (x : ℝ) (i j : Fin 3) :
    |θ * (R i j * x) - rotR theta v i j * x| ≤ relErr u 20 * (((1 : Matrix (Fin 3) (Fin 3) ℝ) i j + |rotW v i j| + 2 * ∑ k, |rotW v i k| * |rotW v k j|) * |x|) := by
  obtain ⟨s, h, c, c2, hs, hh, hc, hc2, hR⟩ := hR
  obtain ⟨a, b, w, d, ha, hb, hw, hd, hr⟩ := hR i j
  obtain ⟨φ, hφ, e⟩ := dot_near h0 h1 hw
  rw [Finset.card_univ, Fintype.card_fin] at hφ
  have hθ : ∀ x, Near u 3 x (θ * x) := fun x => ⟨θ, rfl, ht.1, ht.2⟩
  obtain ⟨ρ, er, r1, r2⟩ := near_of_rd h0 h1 hr
  have hρ : ∀ x, Near u 1 x (ρ * x) := fun x => ⟨ρ, rfl, r1, r2⟩
  obtain ⟨β, eb, b1, b2⟩ := near_of_rd h0 h1 hb
  have hβ : ∀ x, Near u 1 x (β * x) := fun x => ⟨β, rfl, b1, b2⟩
  obtain ⟨δ, ed, d1, d2⟩ := near_of_rd h0 h1 hd
  have hδ : ∀ x, Near u 1 x (δ * x) := fun x => ⟨δ, rfl, d1, d2⟩
  -- the identity
  have t1 : Near u 20 ((1 : Matrix (Fin 3) (Fin 3) ℝ) i j * x) (θ * (ρ * (β * ((1 : Matrix (Fin 3) (Fin 3) ℝ) i j * x)))) :=
    near_mono h0 h1 (by norm_num) (near_trans h1 (near_trans h1 (hβ _) (hρ _)) (hθ _))
  -- the part with the sine
  have ns : Near u 6 (Real.sin theta * rotW v i j) a := near_rd h0 h1 (near_mul h1 (near_of_rd h0 h1 hs) (near_rotW h0 h1 hn i j)) ha
  have t2 : Near u 20 (Real.sin theta * rotW v i j * x) (θ * (ρ * (β * (a * x)))) :=
    near_mono h0 h1 (by norm_num) (near_trans h1 (near_trans h1 (near_trans h1 (near_mul h1 ns (near_refl h0 h1 0 x)) (hβ _)) (hρ _)) (hθ _))
  -- the square
  have nc : Near u 4 (2 * Real.sin (theta / 2) ^ 2) c2 := by
    have q := near_mul h1 (near_of_rd h0 h1 hh) (near_of_rd h0 h1 hh)
    rw [← pow_two, ← pow_two] at q
    have q2 := near_rd h0 h1 (near_mul h1 (near_refl h0 h1 0 2) (near_rd h0 h1 q hc)) hc2
    exact q2
  have t3 : ∀ k, Near u 20 (2 * Real.sin (theta / 2) ^ 2 * (rotW v i k * rotW v k j) * x) (θ * (ρ * (δ * (c2 * (φ k * (rotW n i k * rotW n k j)) * x)))) := by
    intro k
    have m1 := near_mul h1 (near_rotW h0 h1 hn i k) (near_rotW h0 h1 hn k j)
    have m2 : Near u 11 (rotW v i k * rotW v k j) (φ k * (rotW n i k * rotW n k j)) := near_trans h1 m1 ⟨φ k, rfl, (hφ k).1, (hφ k).2⟩
    have m3 := near_mul h1 (near_mul h1 nc m2) (near_refl h0 h1 0 x)
    exact near_mono h0 h1 (by norm_num) (near_trans h1 (near_trans h1 (near_trans h1 m3 (hδ _)) (hρ _)) (hθ _))
  have eL : θ * (R i j * x) = θ * (ρ * (β * ((1 : Matrix (Fin 3) (Fin 3) ℝ) i j * x))) + θ * (ρ * (β * (a * x))) +
      ∑ k, θ * (ρ * (δ * (c2 * (φ k * (rotW n i k * rotW n k j)) * x))) := by
    rw [er, eb, ed, e]
    simp only [Fin.sum_univ_three]
    ring
  have eR : rotR theta v i j * x = (1 : Matrix (Fin 3) (Fin 3) ℝ) i j * x + Real.sin theta * rotW v i j * x +
      ∑ k, 2 * Real.sin (theta / 2) ^ 2 * (rotW v i k * rotW v k j) * x := by
    simp only [rotR, Matrix.add_apply, Matrix.smul_apply, smul_eq_mul, Matrix.mul_apply, Fin.sum_univ_three]
    ring
  rw [eL, eR]
  have hE : 0 ≤ relErr u 20 := relErr_nonneg h0 h1 20
  have k1 := near_err h1 t1
  have k2 := near_err h1 t2
  have k3 := fun k => near_err h1 (t3 k)
  have hone : |(1 : Matrix (Fin 3) (Fin 3) ℝ) i j| = (1 : Matrix (Fin 3) (Fin 3) ℝ) i j := by
    rw [Matrix.one_apply]; split_ifs <;> simp
  have hs1 : |Real.sin theta| ≤ 1 := Real.abs_sin_le_one _
  have hs2 : |2 * Real.sin (theta / 2) ^ 2| ≤ 2 := by
    rw [abs_mul, abs_pow, abs_two]
    nlinarith [Real.abs_sin_le_one (theta / 2), abs_nonneg (Real.sin (theta / 2))]
  rw [abs_mul, hone] at k1
  rw [abs_mul, abs_mul] at k2
  have k2' : |θ * (ρ * (β * (a * x))) - Real.sin theta * rotW v i j * x| ≤ relErr u 20 * (|rotW v i j| * |x|) := by
    refine k2.trans (mul_le_mul_of_nonneg_left ?_ hE)
    exact mul_le_mul_of_nonneg_right (mul_le_of_le_one_left (abs_nonneg _) hs1) (abs_nonneg _)
  have k3' : |∑ k, θ * (ρ * (δ * (c2 * (φ k * (rotW n i k * rotW n k j)) * x))) - ∑ k, 2 * Real.sin (theta / 2) ^ 2 * (rotW v i k * rotW v k j) * x| ≤
      relErr u 20 * ((2 * ∑ k, |rotW v i k| * |rotW v k j|) * |x|) := by
    rw [← Finset.sum_sub_distrib]
    refine (Finset.abs_sum_le_sum_abs _ _).trans ?_
    rw [Finset.mul_sum, Finset.sum_mul, Finset.mul_sum]
    refine Finset.sum_le_sum fun k _ => (k3 k).trans (mul_le_mul_of_nonneg_left ?_ hE)
    rw [abs_mul, abs_mul, abs_mul (rotW v i k)]
    exact mul_le_mul_of_nonneg_right (mul_le_mul_of_nonneg_right hs2 (by positivity)) (abs_nonneg _)
  calc _ = |(θ * (ρ * (β * ((1 : Matrix (Fin 3) (Fin 3) ℝ) i j * x))) - (1 : Matrix (Fin 3) (Fin 3) ℝ) i j * x) + (θ * (ρ * (β * (a * x))) - Real.sin theta * rotW v i j * x) +
        (∑ k, θ * (ρ * (δ * (c2 * (φ k * (rotW n i k * rotW n k j)) * x))) - ∑ k, 2 * Real.sin (theta / 2) ^ 2 * (rotW v i k * rotW v k j) * x)| := by ring_nf
    _ ≤ _ + _ + _ := (abs_add_le _ _).trans (add_le_add (abs_add_le _ _) le_rfl)
    _ ≤ _ := add_le_add (add_le_add k1 k2') k3'
    _ = _ := by ring

end Flt

/-- Row sums of absolute values, for a unit axis. -/
theorem gross_rot {n : V3} (hn : n 0 ^ 2 + n 1 ^ 2 + n 2 ^ 2 = 1) (x : V3) (i : Fin 3) :
    ∑ j, ((1 : Matrix (Fin 3) (Fin 3) ℝ) i j + |rotW n i j| + 2 * ∑ k, |rotW n i k| * |rotW n k j|) * |x j| ≤ 5 * modulus x := by
  set m := modulus x with hm
  have hm0 : 0 ≤ m := modulus_nonneg x
  have hx : ∀ i, |x i| ≤ m := fun i => abs_le_modulus x i
  have e : |x 0| ^ 2 + |x 1| ^ 2 + |x 2| ^ 2 = m ^ 2 := by rw [hm, modulus_sq3]; simp only [sq_abs]
  have en : |n 0| ^ 2 + |n 1| ^ 2 + |n 2| ^ 2 = 1 := by simp only [sq_abs]; exact hn
  have cs : ∀ a b c d : ℝ, 0 ≤ a → 0 ≤ b → 0 ≤ c → 0 ≤ d → a ^ 2 + b ^ 2 ≤ 1 → c ^ 2 + d ^ 2 ≤ m ^ 2 → a * c + b * d ≤ m := by
    intro a b c d ha hb hc hd h h'
    refine abs_le_of_sq_le_sq' (a := a * c + b * d) ?_ hm0 |>.2
    nlinarith [sq_nonneg (a * d - b * c), mul_le_mul h h' (by positivity) (by norm_num)]
  have two : ∀ a b : ℝ, 0 ≤ a → 0 ≤ b → a ^ 2 + b ^ 2 ≤ 1 → a + b ≤ 3 / 2 := by
    intro a b ha hb h
    nlinarith [sq_nonneg (a - b), sq_nonneg (a + b - 3 / 2)]
  have p0 := abs_nonneg (n 0)
  have p1 := abs_nonneg (n 1)
  have p2 := abs_nonneg (n 2)
  have q0 := abs_nonneg (x 0)
  have q1 := abs_nonneg (x 1)
  have q2 := abs_nonneg (x 2)
  have hs : ∀ (r s : Fin 3), r ≠ s → |x r| ^ 2 + |x s| ^ 2 ≤ m ^ 2 := by
    intro r s h
    fin_cases r <;> fin_cases s <;> first | exact absurd rfl h | (simp only [Fin.mk_zero, Fin.mk_one, Fin.reduceFinMk]; nlinarith)
  have r01 := cs _ _ _ _ p2 p1 q1 q2 (by nlinarith) (hs 1 2 (by decide))
  have r10 := cs _ _ _ _ p2 p0 q0 q2 (by nlinarith) (hs 0 2 (by decide))
  have r20 := cs _ _ _ _ p1 p0 q0 q1 (by nlinarith) (hs 0 1 (by decide))
  have t12 := two _ _ p1 p2 (by nlinarith)
  have t02 := two _ _ p0 p2 (by nlinarith)
  have t01 := two _ _ p0 p1 (by nlinarith)
  have hx0 := hx 0
  have hx1 := hx 1
  have hx2 := hx 2
  have step : ∀ a b g h z y : ℝ, 0 ≤ a → 0 ≤ b → a + b ≤ 3 / 2 → g ≤ m → h ≤ m → z ≤ m → y ≤ m → z + y + 2 * (a * g + b * h) ≤ 5 * m := by
    intro a b g h z y ha hb hab hg hh hz hy
    nlinarith [mul_le_mul_of_nonneg_left hg ha, mul_le_mul_of_nonneg_left hh hb, mul_le_mul_of_nonneg_right hab hm0]
  fin_cases i
  · refine le_trans (le_of_eq ?_) (step _ _ _ _ _ _ p2 p1 (by linarith) r10 r20 hx0 r01)
    simp [Fin.sum_univ_three, rotW, Matrix.one_apply, -abs_mul_abs_self]
    ring
  · refine le_trans (le_of_eq ?_) (step _ _ _ _ _ _ p2 p0 (by linarith) r01 r20 hx1 r10)
    simp [Fin.sum_univ_three, rotW, Matrix.one_apply, -abs_mul_abs_self]
    ring
  · refine le_trans (le_of_eq ?_) (step _ _ _ _ _ _ p1 p0 (by linarith) r01 r10 hx2 r20)
    simp [Fin.sum_univ_three, rotW, Matrix.one_apply, -abs_mul_abs_self]
    ring

/-- C120: the computed rotation.  Every computed coordinate is the exact one to within `5 relErr(u,20)` (about 100 units in the last place) of the
distance of the point from the origin, whatever the angle, the axis, its length and the order of the sums; the masses are copied; and a zero axis gives
no result. -/
theorem C120_point {u : ℝ} (h0 : 0 ≤ u) (h1 : u < 1) (A A' : PtArray) (theta : ℝ) (rotVec : V3) (h : Flt.rotate_point_array u A theta rotVec A') :
    ∃ E, rotate_point_array A theta rotVec = some E ∧
      List.Forall₂ (fun e a => a.mass = e.mass ∧ ∀ i, |a.pos i - e.pos i| ≤ 5 * relErr u 20 * modulus e.pos) E A' := by
  rcases h with ⟨rfl, rfl⟩ | ⟨n, R, hn, hR, hA⟩
  · exact ⟨[], rfl, .nil⟩
  have hv : rotVec ≠ 0 := by
    rintro rfl
    obtain ⟨s, r, hs, hr, hr0, -⟩ := hn
    exact hr0 ((Flt.norm_zero h0 h1 hs hr).2 rfl)
  refine ⟨_, rotate_some hv theta A, ?_⟩
  rw [List.forall₂_map_left_iff]
  refine hA.imp fun p p' hp => ⟨hp.1, fun i => ?_⟩
  obtain ⟨θ, ht, e⟩ := Flt.dot_near h0 h1 (hp.2 i)
  rw [Finset.card_univ, Fintype.card_fin] at ht
  have e2 : rotF theta rotVec p.pos i = ∑ j, rotR theta (unitOf rotVec) i j * p.pos j := by rw [rotF, Matrix.mulVec, dotProduct]
  simp only [rotF_modulus hv]
  rw [e2, e, ← Finset.sum_sub_distrib]
  refine (Finset.abs_sum_le_sum_abs _ _).trans ?_
  refine (Finset.sum_le_sum fun j _ => Flt.entry_err h0 h1 (Flt.near_unit h0 h1 hn) hR (ht j) (p.pos j) i j).trans ?_
  rw [← Finset.mul_sum]
  have := mul_le_mul_of_nonneg_left (gross_rot (unitOf_unit hv) p.pos i) (relErr_nonneg h0 h1 20)
  linarith

/-- The same as displacements of the exactly rotated points. -/
theorem C120_displaced {u : ℝ} (h0 : 0 ≤ u) (h1 : u < 1) (A A' : PtArray) (theta : ℝ) (rotVec : V3) (h : Flt.rotate_point_array u A theta rotVec A') :
    ∃ Q : List (Pt × V3), rotate_point_array A theta rotVec = some (nominal Q) ∧ displaced Q = A' ∧ ∀ q ∈ Q, modulus q.2 ≤ 9 * relErr u 20 * modulus q.1.pos := by
  obtain ⟨E, e, hE⟩ := C120_point h0 h1 A A' theta rotVec h
  rw [e]
  clear e h
  have hr := relErr_nonneg h0 h1 20
  induction hE with
  | nil => exact ⟨[], rfl, rfl, by simp⟩
  | @cons p p' B B' hp _ ih =>
    obtain ⟨Q, e1, e2, hq⟩ := ih
    rw [Option.some.injEq] at e1
    refine ⟨(p, p'.pos - p.pos) :: Q, ?_, ?_, ?_⟩
    · simp only [nominal, List.map_cons] at e1 ⊢; rw [e1]
    · simp only [displaced, List.map_cons] at e2 ⊢
      rw [e2]
      congr 1
      cases p'
      simp only [add_sub_cancel] at hp ⊢
      rw [hp.1]
    · intro q hm
      rcases List.mem_cons.1 hm with rfl | hm
      · set t := relErr u 20 * modulus p.pos with ht
        have ht0 : 0 ≤ t := mul_nonneg hr (modulus_nonneg _)
        have k : ∀ i, (p'.pos - p.pos) i ^ 2 ≤ 25 * t ^ 2 := by
          intro i
          have := pow_le_pow_left₀ (abs_nonneg _) (hp.2 i) 2
          rw [sq_abs] at this
          rw [Pi.sub_apply]
          refine this.trans (le_of_eq ?_)
          rw [ht]; ring
        have e : modulus (p'.pos - p.pos) ^ 2 ≤ (9 * t) ^ 2 := by
          rw [modulus_sq3]
          nlinarith [k 0, k 1, k 2]
        have := abs_le_of_sq_le_sq' e (by positivity) |>.2
        rw [ht, ← mul_assoc] at this
        exact this
      · exact hq q hm

/-- C120: for every rounding rule the computed rotation has a result exactly when the exact one has: unless the axis is the zero vector. -/
theorem C120_defined {u : ℝ} (h0 : 0 ≤ u) (h1 : u < 1) (rnd : ℝ → ℝ) (hrnd : ∀ x, Flt.Rd u x (rnd x)) (A : PtArray) (theta : ℝ) (rotVec : V3) :
    (∃ A', Flt.rotate_point_array u A theta rotVec A') ↔ ∃ E, rotate_point_array A theta rotVec = some E := by
  constructor
  · rintro ⟨A', h⟩
    obtain ⟨E, e, -⟩ := C120_point h0 h1 A A' theta rotVec h
    exact ⟨E, e⟩
  · rintro ⟨E, e⟩
    by_cases hA : A = []
    · exact ⟨[], Or.inl ⟨hA, rfl⟩⟩
    have hv : rotVec ≠ 0 := by
      rintro rfl
      obtain ⟨p, A, rfl⟩ := List.exists_cons_of_ne_nil hA
      simp [rotate_point_array, rotMatrix, (modulus_eq_zero 0).2 rfl] at e
    have hU : (Finset.univ : Finset (Fin 3)).Nonempty := ⟨0, Finset.mem_univ _⟩
    obtain ⟨s, hs⟩ := dot_exists rnd hrnd rotVec rotVec Finset.univ hU
    have hr0 : rnd (Real.sqrt s) ≠ 0 := fun e => hv ((Flt.norm_zero h0 h1 hs (hrnd _)).1 e)
    set n : V3 := fun i => rnd (rotVec i / rnd (Real.sqrt s)) with hn
    choose w hw using fun i j : Fin 3 => dot_exists rnd hrnd (fun k => rotW n i k) (fun k => rotW n k j) Finset.univ hU
    set s' := rnd (Real.sin theta)
    set c2 := rnd (2 * rnd (rnd (Real.sin (theta / 2)) ^ 2))
    set R : Matrix (Fin 3) (Fin 3) ℝ := fun i j => rnd (rnd ((1 : Matrix (Fin 3) (Fin 3) ℝ) i j + rnd (s' * rotW n i j)) + rnd (c2 * w i j))
    choose y hy using fun (p : Pt) (i : Fin 3) => dot_exists rnd hrnd (fun j => R i j) p.pos Finset.univ hU
    refine ⟨A.map fun p => ⟨p.mass, y p⟩, Or.inr ⟨n, R, ⟨s, _, hs, hrnd _, hr0, fun i => hrnd _⟩,
      ⟨s', _, _, c2, hrnd _, hrnd _, hrnd _, hrnd _, fun i j => ⟨_, _, w i j, _, hrnd _, hrnd _, hw i j, hrnd _, hrnd _⟩⟩, ?_⟩⟩
    rw [List.forall₂_map_right_iff, List.forall₂_same]
    exact fun p _ => ⟨rfl, fun i => hy p i⟩

/-- C120: without rounding the relation is the exact routine. -/
theorem C120_exact (A A' : PtArray) (theta : ℝ) (rotVec : V3) : Flt.rotate_point_array 0 A theta rotVec A' ↔ rotate_point_array A theta rotVec = some A' := by
  have key : ∀ A', Flt.rotate_point_array 0 A theta rotVec A' → rotate_point_array A theta rotVec = some A' := by
    intro A' h
    obtain ⟨E, e, hE⟩ := C120_point le_rfl one_pos A A' theta rotVec h
    rw [e, Option.some.injEq, ← List.forall₂_eq_eq_eq]
    refine hE.imp fun a b hab => ?_
    obtain ⟨am, ap⟩ := a
    obtain ⟨bm, bp⟩ := b
    obtain ⟨h1, h2⟩ := hab
    simp only at h1 h2
    subst h1
    congr 1
    funext i
    have := h2 i
    simp only [relErr, sub_zero, one_pow, inv_one, sub_self, mul_zero, zero_mul] at this
    linarith [abs_nonpos_iff.1 this]
  refine ⟨key A', fun e => ?_⟩
  obtain ⟨B, hB⟩ := (C120_defined le_rfl one_pos id (fun x => by simp [Flt.Rd]) A theta rotVec).2 ⟨A', e⟩
  rw [key B hB, Option.some.injEq] at e
  exact e ▸ hB

/-- C120: computed rotations are rigid up to rounding: distances between points, and distances from the origin, change by a few units in the last
place of the distances from the origin. -/
theorem C120_rigid {u : ℝ} (h0 : 0 ≤ u) (h1 : u < 1) (p q : Pt) (A' : PtArray) (theta : ℝ) (rotVec : V3)
    (h : Flt.rotate_point_array u [p, q] theta rotVec A') :
    ∃ p' q', A' = [p', q'] ∧ |modulus p'.pos - modulus p.pos| ≤ 9 * relErr u 20 * modulus p.pos ∧
      |modulus (p'.pos - q'.pos) - modulus (p.pos - q.pos)| ≤ 9 * relErr u 20 * (modulus p.pos + modulus q.pos) := by
  obtain ⟨Q, e1, e2, hq⟩ := C120_displaced h0 h1 _ A' theta rotVec h
  have hv : rotVec ≠ 0 := by
    rintro rfl
    simp [rotate_point_array, rotMatrix, (modulus_eq_zero 0).2 rfl] at e1
  rw [rotate_some hv, Option.some.injEq] at e1
  match Q, e1, e2, hq with
  | [], e1, _, _ => simp [nominal] at e1
  | [_], e1, _, _ => simp [nominal] at e1
  | _ :: _ :: _ :: _, e1, _, _ => simp [nominal] at e1
  | [a, b], e1, e2, hq =>
    simp only [nominal, List.map_cons, List.map_nil, List.cons.injEq, and_true] at e1
    have ha := hq a (by simp)
    have hb := hq b (by simp)
    rw [← e1.1] at ha
    rw [← e1.2] at hb
    simp only [rotF_modulus hv] at ha hb
    refine ⟨_, _, e2.symm, ?_, ?_⟩
    · simp only [← e1.1]
      have k1 := modulus_add_le (rotF theta rotVec p.pos) a.2
      have k2 := modulus_add_le (rotF theta rotVec p.pos + a.2) (-a.2)
      rw [add_neg_cancel_right, modulus_neg] at k2
      rw [rotF_modulus hv] at k1 k2
      rw [abs_le]; constructor <;> linarith
    · simp only [← e1.1, ← e1.2]
      have k0 : modulus (rotF theta rotVec p.pos - rotF theta rotVec q.pos) = modulus (p.pos - q.pos) := by
        rw [← rotF_sub, rotF_modulus hv]
      set x := rotF theta rotVec p.pos
      set y := rotF theta rotVec q.pos
      have k1 := modulus_add_le (x - y) (a.2 + -b.2)
      have k2 := modulus_add_le (x + a.2 - (y + b.2)) (-a.2 + b.2)
      have k3 := modulus_add_le a.2 (-b.2)
      have k4 := modulus_add_le (-a.2) b.2
      rw [modulus_neg] at k3 k4
      rw [show x - y + (a.2 + -b.2) = x + a.2 - (y + b.2) by abel, k0] at k1
      rw [show x + a.2 - (y + b.2) + (-a.2 + b.2) = x - y by abel, k0] at k2
      rw [abs_le]; constructor <;> linarith

/-- C120: one call after another (a turntable stepped through its positions).  After any number of rotations about any axes through the origin, each point is where
exact arithmetic would have put it to within `(1 + 9 relErr(u,20))^n - 1` of its distance from the origin: the errors grow linearly with the number
of steps, not faster. -/
theorem C120_steps {u : ℝ} (h0 : 0 ≤ u) (h1 : u < 1) (steps : List (ℝ × V3)) (A A' : PtArray)
    (h : Chain (fun s B C => Flt.rotate_point_array u B s.1 s.2 C) steps A A') :
    ∃ E, Chain (fun s B C => rotate_point_array B s.1 s.2 = some C) steps A E ∧
      List.Forall₂ (fun e a => a.mass = e.mass ∧ modulus (a.pos - e.pos) ≤ ((1 + 9 * relErr u 20) ^ steps.length - 1) * modulus e.pos) E A' := by
  have hr := relErr_nonneg h0 h1 20
  set ε := 9 * relErr u 20 with hε
  have hε0 : 0 ≤ ε := by positivity
  have key : ∀ (steps : List (ℝ × V3)) (A A' A0 : PtArray) (d : ℝ), 0 ≤ d → List.Forall₂ (fun e a => a.mass = e.mass ∧ modulus (a.pos - e.pos) ≤ d * modulus e.pos) A0 A →
      Chain (fun s B C => Flt.rotate_point_array u B s.1 s.2 C) steps A A' →
      ∃ E, Chain (fun s B C => rotate_point_array B s.1 s.2 = some C) steps A0 E ∧
        List.Forall₂ (fun e a => a.mass = e.mass ∧ modulus (a.pos - e.pos) ≤ ((1 + ε) ^ steps.length * (1 + d) - 1) * modulus e.pos) E A' := by
    intro steps
    induction steps with
    | nil =>
      intro A A' A0 d hd hA h
      cases h
      exact ⟨A0, .nil A0, hA.imp fun a b hab => ⟨hab.1, hab.2.trans (le_of_eq (by simp))⟩⟩
    | cons s l ih =>
      intro A A' A0 d hd hA h
      cases h with
      | @cons _ _ _ B _ hs hl =>
      have hstep : ∃ B0, rotate_point_array A0 s.1 s.2 = some B0 ∧
          List.Forall₂ (fun e a => a.mass = e.mass ∧ modulus (a.pos - e.pos) ≤ ((1 + ε) * (1 + d) - 1) * modulus e.pos) B0 B := by
        obtain ⟨Q, e1, e2, hq⟩ := C120_displaced h0 h1 A B s.1 s.2 hs
        by_cases hv : s.2 = 0
        · cases hA with
          | nil =>
            have : nominal Q = [] := by simpa [rotate_point_array] using e1.symm
            have hQ : Q = [] := by simpa [nominal] using this
            subst hQ
            exact ⟨[], rfl, by rw [← e2]; exact .nil⟩
          | cons =>
            rw [hv] at e1
            simp [rotate_point_array, rotMatrix, (modulus_eq_zero 0).2 rfl] at e1
        · rw [rotate_some hv, Option.some.injEq] at e1
          refine ⟨_, rotate_some hv _ _, ?_⟩
          rw [← e2, displaced, List.forall₂_map_left_iff, List.forall₂_map_right_iff]
          have hQA : List.Forall₂ (fun a q => (⟨a.mass, rotF s.1 s.2 a.pos⟩ : Pt) = q.1 ∧ modulus q.2 ≤ ε * modulus q.1.pos) A Q := by
            have h1 : List.Forall₂ (fun a q => (⟨a.mass, rotF s.1 s.2 a.pos⟩ : Pt) = q.1) A Q := by
              rw [← List.forall₂_eq_eq_eq, nominal, List.forall₂_map_left_iff, List.forall₂_map_right_iff] at e1
              exact e1
            clear e1 e2 hA hs
            induction h1 with
            | nil => exact .nil
            | cons h _ ih => exact .cons ⟨h, hq _ (by simp)⟩ (ih fun q hm => hq q (by simp [hm]))
          clear e1 e2 hq hs
          induction hA generalizing Q with
          | nil => cases hQA; exact .nil
          | @cons e a A0 A hea _ ih' =>
            cases hQA with
            | @cons _ q _ Q haq hQ =>
            refine .cons ⟨by rw [← haq.1]; exact hea.1, ?_⟩ (ih' Q hQ)
            obtain ⟨hq1, hq2⟩ := haq
            rw [← hq1] at hq2 ⊢
            simp only [rotF_modulus hv] at hq2 ⊢
            have k1 := modulus_add_le (rotF s.1 s.2 (a.pos - e.pos)) q.2
            rw [rotF_modulus hv, rotF_sub, show rotF s.1 s.2 a.pos - rotF s.1 s.2 e.pos + q.2 = rotF s.1 s.2 a.pos + q.2 - rotF s.1 s.2 e.pos by abel] at k1
            have k2 := modulus_add_le e.pos (a.pos - e.pos)
            rw [add_sub_cancel] at k2
            have k3 := mul_le_mul_of_nonneg_left (k2.trans (add_le_add le_rfl hea.2)) hε0
            nlinarith [hea.2]
      obtain ⟨B0, e, hB⟩ := hstep
      obtain ⟨E, hE, hf⟩ := ih B A' B0 ((1 + ε) * (1 + d) - 1) (by nlinarith) hB hl
      refine ⟨E, .cons e hE, hf.imp fun a b hab => ⟨hab.1, hab.2.trans (le_of_eq ?_)⟩⟩
      rw [List.length_cons, pow_succ]; ring
  obtain ⟨E, hE, hf⟩ := key steps A A' A 0 le_rfl (by
    rw [List.forall₂_same]
    exact fun a _ => ⟨rfl, by rw [sub_self, (modulus_eq_zero 0).2 rfl]; simp⟩) h
  exact ⟨E, hE, hf.imp fun a b hab => ⟨hab.1, by simpa using hab.2⟩⟩

/-- C120: rotating in floating point and computing the force in floating point: the error is that of C112 for the array actually reached plus the effect of
points misplaced by `9 relErr(u,20)` times their distance `R` from the origin. -/
theorem C120_pipeline {u : ℝ} (h0 : 0 ≤ u) (h1 : u < 1) (A B B' : PtArray) (theta : ℝ) (rotVec : V3) (R D s : ℝ) (hs : s = 9 * relErr u 20 * R)
    (hR : ∀ b ∈ B, modulus b.pos ≤ R) (hR0 : 0 ≤ R) (hD : s < D) (E : PtArray) (hE : rotate_point_array B theta rotVec = some E)
    (hAB : ∀ a ∈ A, ∀ b ∈ E, D ≤ modulus (b.pos - a.pos)) (ht : Flt.rotate_point_array u B theta rotVec B') (F T : V3)
    (h : Flt.point_matrix_gravity u A B' F T) :
    ∃ f t, point_matrix_gravity A E = some (f, t) ∧ ∀ i, |F i - f i| ≤ relErr u (18 + A.length + B.length) * grossForce A B' i +
      BIG_G * absMass A * absMass B * (s * (2 * D - s) / (D ^ 2 * (D - s) ^ 2)) := by
  have hr := relErr_nonneg h0 h1 20
  obtain ⟨Q, e1, e2, hq⟩ := C120_displaced h0 h1 B B' theta rotVec ht
  rw [hE, Option.some.injEq] at e1
  have hEB : E.length = B.length ∧ absMass E = absMass B ∧ ∀ e ∈ E, ∃ b ∈ B, modulus e.pos = modulus b.pos := by
    by_cases hv : rotVec = 0
    · cases B with
      | nil =>
        have : E = [] := by simpa [rotate_point_array] using hE.symm
        subst this
        exact ⟨rfl, rfl, by simp⟩
      | cons b B =>
        rw [hv] at hE
        simp [rotate_point_array, rotMatrix, (modulus_eq_zero 0).2 rfl] at hE
    · rw [rotate_some hv, Option.some.injEq] at hE
      subst hE
      refine ⟨by simp, ?_, fun e he => ?_⟩
      · rw [absMass, absMass, List.map_map]; rfl
      · obtain ⟨b, hb, rfl⟩ := List.mem_map.1 he
        exact ⟨b, hb, rotF_modulus hv _ _⟩
  obtain ⟨hlen, hM, hmod⟩ := hEB
  have eA : nominal (A.map fun a => (a, (0 : V3))) = A := by
    simp [nominal, Function.comp_def]
  have eA' : displaced (A.map fun a => (a, (0 : V3))) = A := by
    simp [displaced, Function.comp_def]
  have hmem : ∀ q ∈ Q, q.1 ∈ E := fun q hm => by rw [e1]; exact List.mem_map_of_mem hm
  obtain ⟨ra, hra0, hra⟩ := exists_within A
  have hs0 : 0 ≤ s := by rw [hs]; positivity
  obtain ⟨f, t, f', t', g1, g2, g3, -⟩ := C114_tolerance (A.map fun a => (a, 0)) Q 0 s ra D
    (fun p hp => by
      obtain ⟨a, ha, rfl⟩ := List.mem_map.1 hp
      exact ⟨by rw [(modulus_eq_zero 0).2 rfl], hra a ha⟩)
    (fun q hm => by
      refine (hq q hm).trans ?_
      obtain ⟨b, hb, e⟩ := hmod _ (hmem q hm)
      rw [e, hs]
      exact mul_le_mul_of_nonneg_left (hR b hb) (by positivity))
    (by linarith) (by linarith) (fun p hp q hm => by
      obtain ⟨a, ha, rfl⟩ := List.mem_map.1 hp
      exact hAB a ha q.1 (hmem q hm))
  rw [eA, ← e1] at g1
  rw [eA', e2] at g2
  obtain ⟨f2, t2, g4, g5⟩ := C112_gravity h0 h1 A B' F T h
  rw [g2, Option.some.injEq, Prod.mk.injEq] at g4
  obtain ⟨rfl, rfl⟩ := g4
  have hlen' : B'.length = B.length := by
    rw [← hlen, e1, ← e2]
    simp [nominal, displaced]
  rw [eA, ← e1, hM, zero_add] at g3
  refine ⟨f, t, g1, fun i => ?_⟩
  have k1 := (g5 i).1
  rw [hlen'] at k1
  have k2 := (abs_le_modulus (f' - f) i).trans g3
  rw [Pi.sub_apply] at k2
  calc |F i - f i| = |(F i - f' i) + (f' i - f i)| := by ring_nf
    _ ≤ |F i - f' i| + |f' i - f i| := abs_add_le _ _
    _ ≤ _ := add_le_add k1 k2

/-- Instance: a point turned by one radian about an oblique axis in double precision; the result differs from the exact one by less than
`1e-13` of the distance 5. -/
example : ∃ (A' E : PtArray), Flt.rotate_point_array ((2 : ℝ)⁻¹ ^ 53) [⟨2, ![3, 4, 0]⟩] 1 ![1, 2, 3] A' ∧ rotate_point_array [⟨2, ![3, 4, 0]⟩] 1 ![1, 2, 3] = some E ∧
    List.Forall₂ (fun e a => a.mass = e.mass ∧ ∀ i, |a.pos i - e.pos i| ≤ 1e-13 * modulus e.pos) E A' := by
  have hu0 : (0 : ℝ) ≤ (2 : ℝ)⁻¹ ^ 53 := by positivity
  have hu1 : (2 : ℝ)⁻¹ ^ 53 < 1 := by norm_num
  have hv : (![1, 2, 3] : V3) ≠ 0 := fun e => by simpa using congrFun e 0
  obtain ⟨A', h⟩ := (C120_defined hu0 hu1 (binRound 53) (C112_binary 53) [⟨2, ![3, 4, 0]⟩] 1 ![1, 2, 3]).2 ⟨_, rotate_some hv _ _⟩
  obtain ⟨E, e, hE⟩ := C120_point hu0 hu1 _ _ _ _ h
  refine ⟨A', E, h, e, hE.imp fun a b hab => ⟨hab.1, fun i => (hab.2 i).trans (mul_le_mul_of_nonneg_right ?_ (modulus_nonneg _))⟩⟩
  have := C112_size (u := (2 : ℝ)⁻¹ ^ 53) hu0 20 (by norm_num)
  refine (mul_le_mul_of_nonneg_left this (by norm_num)).trans ?_
  norm_num

/-- Instance: three double precision steps of a turntable. -/
example : ∃ A', Chain (fun s B C => Flt.rotate_point_array ((2 : ℝ)⁻¹ ^ 53) B s.1 s.2 C) [(1, ![0, 0, 1]), (1, ![0, 0, 1]), (1, ![0, 0, 1])] [⟨2, ![3, 4, 0]⟩] A' := by
  have hu0 : (0 : ℝ) ≤ (2 : ℝ)⁻¹ ^ 53 := by positivity
  have hu1 : (2 : ℝ)⁻¹ ^ 53 < 1 := by norm_num
  have hv : (![0, 0, 1] : V3) ≠ 0 := fun e => by simpa using congrFun e 2
  have k : ∀ A : PtArray, ∃ A', Flt.rotate_point_array ((2 : ℝ)⁻¹ ^ 53) A 1 ![0, 0, 1] A' := fun A =>
    (C120_defined hu0 hu1 (binRound 53) (C112_binary 53) A 1 ![0, 0, 1]).2 ⟨_, rotate_some hv _ _⟩
  obtain ⟨A1, h1⟩ := k [⟨2, ![3, 4, 0]⟩]
  obtain ⟨A2, h2⟩ := k A1
  obtain ⟨A3, h3⟩ := k A2
  exact ⟨A3, .cons h1 (.cons h2 (.cons h3 (.nil _)))⟩

end Newt
