import Verif.Proofs.Rounding
import Verif.Props.Glib
import Verif.Props.Rings
import Mathlib.Data.Int.Log
import Mathlib.Algebra.Order.Round
import Mathlib.Algebra.Order.Archimedean.Real.Basic

/-!
# C112: rounding errors of `point_matrix_gravity`
-/

namespace Newt

open Spec

theorem cross_coord (x y : V3) (i : Fin 3) : crossProduct x y i = x (i + 1) * y (i + 2) - x (i + 2) * y (i + 1) := by
  rw [cross_apply]
  fin_cases i <;> rfl

theorem totF_coord (w : Pt → Pt → ℝ) (A B : PtArray) (i : Fin 3) :
    totF w A B i = (A.map fun p => (B.map fun q => (q.pos - p.pos) i * w p q).sum).sum := by
  rw [totF, list_sum_apply, List.map_map]
  congr 1
  apply List.map_congr_left
  intro a _
  simp only [Function.comp]
  rw [list_sum_apply, List.map_map]
  congr 1
  apply List.map_congr_left
  intro b _
  simp only [Function.comp, Pi.smul_apply, smul_eq_mul]
  ring

theorem totT_coord (w : Pt → Pt → ℝ) (A B : PtArray) (i : Fin 3) :
    totT w A B i = (A.map fun p => (B.map fun q => p.pos (i + 1) * ((q.pos - p.pos) (i + 2) * w p q) - p.pos (i + 2) * ((q.pos - p.pos) (i + 1) * w p q)).sum).sum := by
  rw [totT_eq, list_sum_apply, List.map_map]
  congr 1
  apply List.map_congr_left
  intro a _
  simp only [Function.comp]
  rw [list_sum_apply, List.map_map]
  congr 1
  apply List.map_congr_left
  intro b _
  simp only [Function.comp, cross_coord, Pi.smul_apply, smul_eq_mul]
  ring

theorem double_const (A B : PtArray) (k : ℝ) (f : Pt → Pt → ℝ) :
    (A.map fun p => (B.map fun q => k * f p q).sum).sum = k * (A.map fun p => (B.map fun q => f p q).sum).sum := by
  simp only [List.sum_map_mul_left]

theorem double_nonneg (A B : PtArray) (f : Pt → Pt → ℝ) (h : ∀ p ∈ A, ∀ q ∈ B, 0 ≤ f p q) : 0 ≤ (A.map fun p => (B.map fun q => f p q).sum).sum := by
  refine List.sum_nonneg fun x hx => ?_
  obtain ⟨p, hp, rfl⟩ := List.mem_map.1 hx
  refine List.sum_nonneg fun y hy => ?_
  obtain ⟨q, hq, rfl⟩ := List.mem_map.1 hy
  exact h p hp q hq

theorem run_apart {u : ℝ} (h0 : 0 ≤ u) (h1 : u < 1) {A B : PtArray} {f0 t0 f t : V3} (h : Flt.Loop u (fun p => Flt.gmmr2_array u p B) A f0 t0 f t) :
    Apart A B := by
  induction h with
  | nil => intro a ha; simp at ha
  | cons hg _ _ _ _ ih =>
    intro a ha b hb
    rcases List.mem_cons.1 ha with rfl | ha
    · obtain ⟨rv, w, hj, -⟩ := hg
      obtain ⟨j, rfl⟩ := List.get_of_mem hb
      obtain ⟨hr, r, hm, g, x, y, c, -, -, -, hc, hne, -⟩ := hj j
      exact fun e => hne ((Flt.cube_zero h0 h1 hr hm hc).2 e)
    · exact ih a ha b hb

/-- C112: in floating point arithmetic of unit roundoff `u`, whatever the order of summation and the choice of each rounding, the result of
`point_matrix_gravity` differs from the exact one, component by component, by at most the error of `18 + |A| + |B|` roundings (two more
for the torque) relative to the sum of the absolute values of the pair contributions. -/
theorem C112_gravity {u : ℝ} (h0 : 0 ≤ u) (h1 : u < 1) (A B : PtArray) (F T : V3) (h : Flt.point_matrix_gravity u A B F T) :
    ∃ f t, point_matrix_gravity A B = some (f, t) ∧ ∀ i, |F i - f i| ≤ relErr u (18 + A.length + B.length) * grossForce A B i ∧
      |T i - t i| ≤ relErr u (20 + A.length + B.length) * grossTorque A B i := by
  refine ⟨_, _, pmg_some (run_apart h0 h1 h), fun i => ?_⟩
  obtain ⟨e1, e2⟩ := Flt.loop_err h0 h1 (t := pairForce) (c := fun _ _ => 1) (fun p F hr i => Flt.row_near h0 h1 hr i) h i
  rw [double_const, one_div] at e1 e2
  rw [show 18 + A.length + B.length = 18 + B.length + A.length by omega, show 20 + A.length + B.length = 18 + B.length + 2 + A.length by omega,
    totF_coord, totT_coord]
  simp only [Flt.pairForce_eq] at e1 e2
  simp only [relErr, grossForce, grossTorque, Flt.pairForce_eq]
  exact ⟨e1, e2⟩

/-- C112: the floating point program returns a number exactly when the exact one does; for no choice of roundings does the divisor vanish
for distinct points. -/
theorem C112_divisor {u : ℝ} (h0 : 0 ≤ u) (h1 : u < 1) (p q : Pt) (rv : V3) (r c : ℝ) (h : Flt.RVec u p q rv) (hr : Flt.Mod u rv r)
    (hc : Flt.Rd u (r ^ 3) c) : c = 0 ↔ p.pos = q.pos := Flt.cube_zero h0 h1 h hr hc

/-! ## Runs exist for every way of rounding -/

theorem dot_exists {u : ℝ} (rnd : ℝ → ℝ) (hrnd : ∀ x, Flt.Rd u x (rnd x)) {n : ℕ} (x w : Fin n → ℝ) (S : Finset (Fin n)) (hS : S.Nonempty) :
    ∃ s, Flt.Dot u x w S s := by
  classical
  induction hS using Finset.Nonempty.cons_induction with
  | singleton j => exact ⟨_, .one j (hrnd _)⟩
  | cons j S hj _ ih =>
    obtain ⟨s, hs⟩ := ih
    rw [Finset.cons_eq_insert]
    exact ⟨_, .fma j hj hs (hrnd _)⟩

theorem row_exists {u : ℝ} (h0 : 0 ≤ u) (h1 : u < 1) (rnd : ℝ → ℝ) (hrnd : ∀ x, Flt.Rd u x (rnd x)) (p : Pt) (B : PtArray)
    (h : ∀ b ∈ B, p.pos ≠ b.pos) : ∃ F, Flt.gmmr2_array u p B F := by
  have key : ∀ j : Fin B.length, ∃ (rv : V3) (w : ℝ), Flt.RVec u p (B.get j) rv ∧ ∃ r, Flt.Mod u rv r ∧ Flt.Weight u p (B.get j) r w := by
    intro j
    refine ⟨fun i => rnd ((B.get j).pos i - p.pos i), _, fun i => hrnd _, _, ⟨fun i => _, fun i => hrnd _, _, _, hrnd _, hrnd _, hrnd _⟩,
      _, _, _, _, hrnd _, hrnd _, hrnd _, hrnd _, ?_, hrnd _⟩
    refine fun e => h _ (List.get_mem _ j) ((Flt.cube_zero h0 h1 (rv := fun i => rnd ((B.get j).pos i - p.pos i)) (fun i => hrnd _)
      ⟨fun i => _, fun i => hrnd _, _, _, hrnd _, hrnd _, hrnd _⟩ (hrnd _)).1 e)
  choose rv w hj using key
  by_cases hB : B = []
  · exact ⟨0, rv, w, hj, fun i => Or.inl ⟨hB, rfl⟩⟩
  · have : (Finset.univ : Finset (Fin B.length)).Nonempty := ⟨⟨0, List.length_pos_iff.2 hB⟩, Finset.mem_univ _⟩
    choose F hF using fun i : Fin 3 => dot_exists rnd hrnd (fun j => rv j i) w _ this
    exact ⟨F, rv, w, hj, fun i => Or.inr (hF i)⟩

/-- C112: for every rounding rule of relative accuracy `u` there is a run of the program, whenever no two points coincide; and there is none
otherwise. -/
theorem C112_defined {u : ℝ} (h0 : 0 ≤ u) (h1 : u < 1) (rnd : ℝ → ℝ) (hrnd : ∀ x, Flt.Rd u x (rnd x)) (A B : PtArray) :
    (∃ F T, Flt.point_matrix_gravity u A B F T) ↔ ∃ f t, point_matrix_gravity A B = some (f, t) := by
  constructor
  · rintro ⟨F, T, h⟩
    obtain ⟨f, t, e, -⟩ := C112_gravity h0 h1 A B F T h
    exact ⟨f, t, e⟩
  · rintro ⟨f, t, e⟩
    have hA : Apart A B := by
      by_contra hc
      rw [pmg_none hc] at e
      exact absurd e (by simp)
    have key : ∀ (A : PtArray) (f0 t0 : V3), Apart A B → ∃ F T, Flt.Loop u (fun p => Flt.gmmr2_array u p B) A f0 t0 F T := by
      intro A
      induction A with
      | nil => intro f0 t0 _; exact ⟨f0, t0, .nil f0 t0⟩
      | cons p A ih =>
        intro f0 t0 h
        obtain ⟨fk, hfk⟩ := row_exists h0 h1 rnd hrnd p B fun b hb => h p (by simp) b hb
        have hc : ∃ tk, Flt.Cross u p.pos fk tk :=
          ⟨![_, _, _], ⟨_, _, hrnd _, hrnd _, hrnd _⟩, ⟨_, _, hrnd _, hrnd _, hrnd _⟩, ⟨_, _, hrnd _, hrnd _, hrnd _⟩⟩
        obtain ⟨tk, htk⟩ := hc
        obtain ⟨F, T, hl⟩ := ih (fun i => rnd (f0 i + fk i)) (fun i => rnd (t0 i + tk i)) fun a ha b hb => h a (by simp [ha]) b hb
        exact ⟨F, T, .cons hfk htk (fun i => hrnd _) (fun i => hrnd _) hl⟩
    exact key A 0 0 hA

/-- Rounding to the nearest number with `p` binary digits (ties and all), exponents unbounded. -/
noncomputable def binRound (p : ℕ) (x : ℝ) : ℝ := (round (x * 2 ^ ((p : ℤ) - 1 - Int.log 2 |x|)) : ℝ) * 2 ^ (Int.log 2 |x| + 1 - (p : ℤ))

/-- C112: rounding to `p` binary digits has unit roundoff `2^-p`; IEEE doubles are `p = 53`. -/
theorem C112_binary (p : ℕ) (x : ℝ) : Flt.Rd ((2 : ℝ)⁻¹ ^ p) x (binRound p x) := by
  rw [Flt.Rd, binRound]
  by_cases hx : x = 0
  · subst hx; simp
  set e := Int.log 2 |x|
  have h1 : (2 : ℝ) ^ e ≤ |x| := by simpa using Int.zpow_log_le_self (b := 2) (by norm_num) (abs_pos.2 hx)
  have h2 : (0 : ℝ) < 2 ^ (e + 1 - (p : ℤ)) := by positivity
  have h3 : x = x * 2 ^ ((p : ℤ) - 1 - e) * 2 ^ (e + 1 - (p : ℤ)) := by
    rw [mul_assoc, ← zpow_add₀ (by norm_num : (2 : ℝ) ≠ 0)]
    rw [show (p : ℤ) - 1 - e + (e + 1 - (p : ℤ)) = 0 by ring, zpow_zero, mul_one]
  have h4 := abs_sub_round (x * 2 ^ ((p : ℤ) - 1 - e))
  calc |(round (x * 2 ^ ((p : ℤ) - 1 - e)) : ℝ) * 2 ^ (e + 1 - (p : ℤ)) - x|
      = |(round (x * 2 ^ ((p : ℤ) - 1 - e)) : ℝ) * 2 ^ (e + 1 - (p : ℤ)) - x * 2 ^ ((p : ℤ) - 1 - e) * 2 ^ (e + 1 - (p : ℤ))| := by rw [← h3]
    _ = |x * 2 ^ ((p : ℤ) - 1 - e) - round (x * 2 ^ ((p : ℤ) - 1 - e))| * 2 ^ (e + 1 - (p : ℤ)) := by
      rw [← sub_mul, abs_mul, abs_of_pos h2, abs_sub_comm]
    _ ≤ 1 / 2 * 2 ^ (e + 1 - (p : ℤ)) := by gcongr
    _ = (2 : ℝ)⁻¹ ^ p * 2 ^ e := by
      rw [zpow_sub₀ (by norm_num), zpow_add₀ (by norm_num), zpow_one, zpow_natCast, inv_pow]; field_simp
    _ ≤ _ := by gcongr

/-! ## Consequences -/

theorem relErr_nonneg {u : ℝ} (h0 : 0 ≤ u) (h1 : u < 1) (k : ℕ) : 0 ≤ relErr u k := by
  have h2 : 0 < (1 - u) ^ k := pow_pos (by linarith) k
  have h3 : (1 - u) ^ k ≤ 1 := pow_le_one₀ (by linarith) (by linarith)
  have := (one_le_inv₀ h2).2 h3
  rw [relErr]; linarith

/-- C112: the size of the bound: `k` roundings of size `u` amount to at most `2 k u` as long as `k u <= 1/2`. -/
theorem C112_size {u : ℝ} (h0 : 0 ≤ u) (k : ℕ) (h : k * u ≤ 1 / 2) : relErr u k ≤ 2 * k * u := by
  rcases Nat.eq_zero_or_pos k with rfl | hk
  · simp [relErr]
  have hk1 : (1 : ℝ) ≤ k := by exact_mod_cast hk
  have hu : u ≤ 1 / 2 := by nlinarith
  have hb := one_add_mul_le_pow (a := -u) (by linarith) k
  have h2 : (0 : ℝ) < 1 - k * u := by linarith
  have h3 : 1 - k * u ≤ (1 - u) ^ k := by
    calc 1 - k * u = 1 + k * -u := by ring
      _ ≤ (1 + -u) ^ k := hb
      _ = (1 - u) ^ k := by rw [← sub_eq_add_neg]
  have h4 : ((1 - u) ^ k)⁻¹ ≤ (1 - k * u)⁻¹ := inv_anti₀ h2 h3
  have h5 : (1 - k * u)⁻¹ ≤ 1 + 2 * k * u := by
    rw [← one_div, div_le_iff₀ h2]
    have : 0 ≤ k * u := by positivity
    nlinarith
  rw [relErr]; linarith

/-- C112: in exact arithmetic (`u = 0`) the floating point program is the exact one. -/
theorem C112_exact (A B : PtArray) (F T : V3) : Flt.point_matrix_gravity 0 A B F T ↔ point_matrix_gravity A B = some (F, T) := by
  have key : ∀ F T, Flt.point_matrix_gravity 0 A B F T → point_matrix_gravity A B = some (F, T) := by
    intro F T h
    obtain ⟨f, t, e, hb⟩ := C112_gravity le_rfl one_pos A B F T h
    have e1 : F = f := by
      funext i
      have := (hb i).1
      simp only [relErr, sub_zero, one_pow, inv_one, sub_self, zero_mul] at this
      exact sub_eq_zero.1 (abs_eq_zero.1 (le_antisymm this (abs_nonneg _)))
    have e2 : T = t := by
      funext i
      have := (hb i).2
      simp only [relErr, sub_zero, one_pow, inv_one, sub_self, zero_mul] at this
      exact sub_eq_zero.1 (abs_eq_zero.1 (le_antisymm this (abs_nonneg _)))
    rw [e, e1, e2]
  refine ⟨key F T, fun h => ?_⟩
  obtain ⟨F', T', h'⟩ := (C112_defined le_rfl one_pos id (fun x => by simp [Flt.Rd]) A B).2 ⟨F, T, h⟩
  have e := key F' T' h'
  rw [h] at e
  simp only [Option.some.injEq, Prod.mk.injEq] at e
  rw [e.1, e.2]; exact h'

/-- C112: positive masses all on one side: the computed component has a small relative error, and the right sign. -/
theorem C112_relative {u : ℝ} (h0 : 0 ≤ u) (h1 : u < 1) (A B : PtArray) (F T : V3) (h : Flt.point_matrix_gravity u A B F T) (i : Fin 3)
    (hA : ∀ a ∈ A, 0 ≤ a.mass) (hB : ∀ b ∈ B, 0 ≤ b.mass) (hside : ∀ a ∈ A, ∀ b ∈ B, a.pos i ≤ b.pos i) :
    ∃ f t, point_matrix_gravity A B = some (f, t) ∧ |F i - f i| ≤ relErr u (18 + A.length + B.length) * f i := by
  obtain ⟨f, t, e, hb⟩ := C112_gravity h0 h1 A B F T h
  refine ⟨f, t, e, ?_⟩
  have := (hb i).1
  rw [pmg_some (run_apart h0 h1 h), Option.some.injEq, Prod.mk.injEq] at e
  have e2 : grossForce A B i = f i := by
    rw [← e.1, totF_coord, grossForce]
    congr 1
    apply List.map_congr_left
    intro a ha
    congr 1
    apply List.map_congr_left
    intro b hb
    have hG := BIG_G_pos
    have := hA a ha
    have := hB b hb
    have : 0 ≤ b.pos i - a.pos i := by linarith [hside a ha b hb]
    rw [abs_of_nonneg (by rw [pairForce]; positivity), Flt.pairForce_eq, gW]
  rwa [e2] at this

/-- C112: Newton's third law holds up to rounding: computed action and reaction cancel to within the two error bounds. -/
theorem C112_third_law {u : ℝ} (h0 : 0 ≤ u) (h1 : u < 1) (A B : PtArray) (F T F' T' : V3) (h : Flt.point_matrix_gravity u A B F T)
    (h' : Flt.point_matrix_gravity u B A F' T') (i : Fin 3) :
    |F i + F' i| ≤ relErr u (18 + A.length + B.length) * (grossForce A B i + grossForce B A i) := by
  obtain ⟨f, t, e, hb⟩ := C112_gravity h0 h1 A B F T h
  obtain ⟨f', t', e', hb'⟩ := C112_gravity h0 h1 B A F' T' h'
  have hz : f i + f' i = 0 := by
    rw [pmg_some (run_apart h0 h1 h), Option.some.injEq, Prod.mk.injEq] at e
    rw [pmg_some (run_apart h0 h1 h'), Option.some.injEq, Prod.mk.injEq] at e'
    rw [← e.1, ← e'.1, totF_antisymm _ gW_symm A B]
    simp
  have a := (hb i).1
  have b := (hb' i).1
  rw [show 18 + B.length + A.length = 18 + A.length + B.length by omega] at b
  calc |F i + F' i| = |(F i - f i) + (F' i - f' i)| := by rw [show F i + F' i = (F i - f i) + (F' i - f' i) + (f i + f' i) by ring, hz, add_zero]
    _ ≤ |F i - f i| + |F' i - f' i| := abs_add_le _ _
    _ ≤ _ := by rw [mul_add]; exact add_le_add a b

/-- C112: doubles and up to 400000 points in the two arrays: ten correct digits, if nothing cancels. -/
theorem C112_double (A B : PtArray) (F T : V3) (h : Flt.point_matrix_gravity ((2 : ℝ)⁻¹ ^ 53) A B F T) (hn : A.length + B.length ≤ 400000) :
    ∃ f t, point_matrix_gravity A B = some (f, t) ∧ ∀ i, |F i - f i| ≤ 1e-10 * grossForce A B i ∧ |T i - t i| ≤ 1e-10 * grossTorque A B i := by
  have h0 : (0 : ℝ) ≤ (2 : ℝ)⁻¹ ^ 53 := by positivity
  have h1 : (2 : ℝ)⁻¹ ^ 53 < 1 := by norm_num
  obtain ⟨f, t, e, hb⟩ := C112_gravity h0 h1 A B F T h
  refine ⟨f, t, e, fun i => ?_⟩
  have key : ∀ k : ℕ, k ≤ 400020 → relErr ((2 : ℝ)⁻¹ ^ 53) k ≤ 1e-10 := by
    intro k hk
    have hk' : (k : ℝ) ≤ 400020 := by exact_mod_cast hk
    refine (C112_size h0 k ?_).trans ?_
    · refine (mul_le_mul_of_nonneg_right hk' h0).trans ?_; norm_num
    · refine (mul_le_mul_of_nonneg_right (mul_le_mul_of_nonneg_left hk' (by norm_num : (0 : ℝ) ≤ 2)) h0).trans ?_; norm_num
  have g1 : 0 ≤ grossForce A B i := by exact double_nonneg A B _ fun p _ q _ => abs_nonneg _
  have g2 : 0 ≤ grossTorque A B i := by exact double_nonneg A B _ fun p _ q _ => by positivity
  exact ⟨(hb i).1.trans (mul_le_mul_of_nonneg_right (key _ (by omega)) g1), (hb i).2.trans (mul_le_mul_of_nonneg_right (key _ (by omega)) g2)⟩

/-! ## Yukawa -/

theorem yrun_apart {u alpha l : ℝ} (h0 : 0 ≤ u) (h1 : u < 1) {A B : PtArray} {f0 t0 f t : V3}
    (h : Flt.Loop u (fun p => Flt.yukawa_array u alpha l p B) A f0 t0 f t) : Apart A B := by
  induction h with
  | nil => intro a ha; simp at ha
  | cons hg _ _ _ _ ih =>
    intro a ha b hb
    rcases List.mem_cons.1 ha with rfl | ha
    · obtain ⟨rv, w, hj, -⟩ := hg
      obtain ⟨j, rfl⟩ := List.get_of_mem hb
      obtain ⟨hr, r, hm, g, x, y, -, -, -, c3, i3, c2, d2, i2, fac, hc3, hne, -⟩ := hj j
      exact fun e => hne ((Flt.cube_zero h0 h1 hr hm hc3).2 e)
    · exact ih a ha b hb

/-- C113: the same for `point_matrix_yukawa` with a positive range: each pair contribution carries the error of `23 + |A| + |B|` roundings (two
more for the torque), times `exp(5 u r/lambda)` (to first order) from rounding the exponent. -/
theorem C113_yukawa {u : ℝ} (h0 : 0 ≤ u) (h1 : u < 1) (alpha l : ℝ) (hl : 0 < l) (A B : PtArray) (F T : V3)
    (h : Flt.point_matrix_yukawa u A B alpha l F T) :
    ∃ f t, point_matrix_yukawa A B alpha l = some (f, t) ∧ ∀ i,
      |F i - f i| ≤ (A.map fun p => (B.map fun q =>
        ((1 + relErr u (23 + A.length + B.length)) * Real.exp (relErr u 5 * (modulus (q.pos - p.pos) / l)) - 1) * |yukPairForce alpha l p q i|).sum).sum ∧
      |T i - t i| ≤ (A.map fun p => (B.map fun q =>
        ((1 + relErr u (25 + A.length + B.length)) * Real.exp (relErr u 5 * (modulus (q.pos - p.pos) / l)) - 1) *
          (|p.pos (i + 1)| * |yukPairForce alpha l p q (i + 2)| + |p.pos (i + 2)| * |yukPairForce alpha l p q (i + 1)|)).sum).sum := by
  refine ⟨_, _, pmy_some hl.ne' (yrun_apart h0 h1 h), fun i => ?_⟩
  obtain ⟨e1, e2⟩ := Flt.loop_err h0 h1 (t := yukPairForce alpha l) (c := fun p q => Real.exp (relErr u 5 * (modulus (q.pos - p.pos) / l)))
    (fun p F hr i => Flt.yrow_near h0 h1 hl hr i) h i
  rw [show 23 + A.length + B.length = 23 + B.length + A.length by omega, show 25 + A.length + B.length = 23 + B.length + 2 + A.length by omega,
    totF_coord, totT_coord]
  have e : ∀ (k : ℕ) (c : ℝ), (1 + relErr u k) * c = c / (1 - u) ^ k := by
    intro k c
    rw [relErr]; ring
  simp only [e]
  simp only [Flt.yukPairForce_eq] at e1 e2
  simp only [Flt.yukPairForce_eq]
  exact ⟨e1, e2⟩

/-- C113: and in absolute terms: if no distance exceeds `X` ranges, all errors are bounded by one relative error. -/
theorem C113_uniform {u : ℝ} (h0 : 0 ≤ u) (h1 : u < 1) (alpha l X : ℝ) (hl : 0 < l) (A B : PtArray)
    (hX : ∀ p ∈ A, ∀ q ∈ B, modulus (q.pos - p.pos) ≤ X * l) (F T : V3) (h : Flt.point_matrix_yukawa u A B alpha l F T) :
    ∃ f t, point_matrix_yukawa A B alpha l = some (f, t) ∧ ∀ i,
      |F i - f i| ≤ ((1 + relErr u (23 + A.length + B.length)) * Real.exp (relErr u 5 * X) - 1) *
        (A.map fun p => (B.map fun q => |yukPairForce alpha l p q i|).sum).sum := by
  obtain ⟨f, t, e, hb⟩ := C113_yukawa h0 h1 alpha l hl A B F T h
  refine ⟨f, t, e, fun i => (hb i).1.trans ?_⟩
  rw [← double_const]
  apply List.sum_le_sum
  intro p hp
  apply List.sum_le_sum
  intro q hq
  refine mul_le_mul_of_nonneg_right ?_ (abs_nonneg _)
  have g1 := relErr_nonneg h0 h1 (23 + A.length + B.length)
  have g2 := relErr_nonneg h0 h1 5
  have : modulus (q.pos - p.pos) / l ≤ X := (div_le_iff₀ hl).2 (hX p hp q hq)
  gcongr

theorem yrow_exists {u : ℝ} (h0 : 0 ≤ u) (h1 : u < 1) (rnd : ℝ → ℝ) (hrnd : ∀ x, Flt.Rd u x (rnd x)) (alpha l : ℝ) (hl : 0 < l) (p : Pt) (B : PtArray)
    (h : ∀ b ∈ B, p.pos ≠ b.pos) : ∃ F, Flt.yukawa_array u alpha l p B F := by
  have key : ∀ j : Fin B.length, ∃ (rv : V3) (w : ℝ), Flt.RVec u p (B.get j) rv ∧ ∃ r, Flt.Mod u rv r ∧ Flt.YukWeight u alpha l p (B.get j) r w := by
    intro j
    have hne := h _ (List.get_mem _ j)
    have hrv : Flt.RVec u p (B.get j) fun i => rnd ((B.get j).pos i - p.pos i) := fun i => hrnd _
    have hm : ∃ r, Flt.Mod u (fun i => rnd ((B.get j).pos i - p.pos i)) r := ⟨_, fun i => _, fun i => hrnd _, _, _, hrnd _, hrnd _, hrnd _⟩
    obtain ⟨r, hm⟩ := hm
    have h3 : rnd (r ^ 3) ≠ 0 := fun e => hne ((Flt.cube_zero h0 h1 hrv hm (hrnd _)).1 e)
    have h2 : rnd (rnd (r ^ 2) * l) ≠ 0 := by
      obtain ⟨θ, e, a, -⟩ := Flt.yuk_divisors h0 h1 hl hrv hm (hrnd _) (hrnd _)
      rw [e]
      have : θ ≠ 0 := (lt_of_lt_of_le (pow_pos (by linarith : 0 < 1 - u) _) a).ne'
      have hm0 : modulus ((B.get j).pos - p.pos) ≠ 0 := by
        rw [Ne, modulus_eq_zero, sub_eq_zero]; exact Ne.symm hne
      positivity
    exact ⟨_, _, hrv, r, hm, _, _, _, hrnd _, hrnd _, hrnd _, _, _, _, _, _, _, hrnd _, h3, hrnd _, hrnd _, hrnd _, h2, hrnd _, hrnd _, _, _, _, _,
      hrnd _, hrnd _, hrnd _, hrnd _, hrnd _⟩
  choose rv w hj using key
  by_cases hB : B = []
  · exact ⟨0, rv, w, hj, fun i => Or.inl ⟨hB, rfl⟩⟩
  · have : (Finset.univ : Finset (Fin B.length)).Nonempty := ⟨⟨0, List.length_pos_iff.2 hB⟩, Finset.mem_univ _⟩
    choose F hF using fun i : Fin 3 => dot_exists rnd hrnd (fun j => rv j i) w _ this
    exact ⟨F, rv, w, hj, fun i => Or.inr (hF i)⟩

/-- C113: runs exist for every rounding rule exactly when no two points coincide. -/
theorem C113_defined {u : ℝ} (h0 : 0 ≤ u) (h1 : u < 1) (rnd : ℝ → ℝ) (hrnd : ∀ x, Flt.Rd u x (rnd x)) (alpha l : ℝ) (hl : 0 < l) (A B : PtArray) :
    (∃ F T, Flt.point_matrix_yukawa u A B alpha l F T) ↔ Apart A B := by
  constructor
  · rintro ⟨F, T, h⟩; exact yrun_apart h0 h1 h
  · intro hA
    have key : ∀ (A : PtArray) (f0 t0 : V3), Apart A B → ∃ F T, Flt.Loop u (fun p => Flt.yukawa_array u alpha l p B) A f0 t0 F T := by
      intro A
      induction A with
      | nil => intro f0 t0 _; exact ⟨f0, t0, .nil f0 t0⟩
      | cons p A ih =>
        intro f0 t0 h
        obtain ⟨fk, hfk⟩ := yrow_exists h0 h1 rnd hrnd alpha l hl p B fun b hb => h p (by simp) b hb
        have hc : ∃ tk, Flt.Cross u p.pos fk tk :=
          ⟨![_, _, _], ⟨_, _, hrnd _, hrnd _, hrnd _⟩, ⟨_, _, hrnd _, hrnd _, hrnd _⟩, ⟨_, _, hrnd _, hrnd _, hrnd _⟩⟩
        obtain ⟨tk, htk⟩ := hc
        obtain ⟨F, T, hl⟩ := ih (fun i => rnd (f0 i + fk i)) (fun i => rnd (t0 i + tk i)) fun a ha b hb => h a (by simp [ha]) b hb
        exact ⟨F, T, .cons hfk htk (fun i => hrnd _) (fun i => hrnd _) hl⟩
    exact key A 0 0 hA

/-- C113: in exact arithmetic the floating point program is the exact one. -/
theorem C113_exact (alpha l : ℝ) (hl : 0 < l) (A B : PtArray) (F T : V3) :
    Flt.point_matrix_yukawa 0 A B alpha l F T ↔ point_matrix_yukawa A B alpha l = some (F, T) := by
  have key : ∀ F T, Flt.point_matrix_yukawa 0 A B alpha l F T → point_matrix_yukawa A B alpha l = some (F, T) := by
    intro F T h
    obtain ⟨f, t, e, hb⟩ := C113_yukawa le_rfl one_pos alpha l hl A B F T h
    have z : ∀ k, relErr 0 k = 0 := fun k => by simp [relErr]
    simp only [z, add_zero, zero_mul, Real.exp_zero, one_mul, sub_self, List.map_const', List.sum_replicate, smul_zero] at hb
    have e1 : F = f := funext fun i => sub_eq_zero.1 (abs_eq_zero.1 (le_antisymm (hb i).1 (abs_nonneg _)))
    have e2 : T = t := funext fun i => sub_eq_zero.1 (abs_eq_zero.1 (le_antisymm (hb i).2 (abs_nonneg _)))
    rw [e, e1, e2]
  refine ⟨key F T, fun h => ?_⟩
  have hA : Apart A B := by
    by_contra hc
    rw [pmy_none hc] at h
    exact absurd h (by simp)
  obtain ⟨F', T', h'⟩ := (C113_defined le_rfl one_pos id (fun x => by simp [Flt.Rd]) alpha l hl A B).2 hA
  have e := key F' T' h'
  rw [h] at e
  simp only [Option.some.injEq, Prod.mk.injEq] at e
  rw [e.1, e.2]; exact h'

/-- Instance: double precision runs of the program for one mass against two exist, and they are accurate to ten digits. -/
example : ∃ F T f t : V3, Flt.point_matrix_gravity ((2 : ℝ)⁻¹ ^ 53) [⟨1, ![0, 0, 0]⟩] [⟨2, ![1, 0, 0]⟩, ⟨3, ![1, 2, 0]⟩] F T ∧
    point_matrix_gravity [⟨1, ![0, 0, 0]⟩] [⟨2, ![1, 0, 0]⟩, ⟨3, ![1, 2, 0]⟩] = some (f, t) ∧
    ∀ i, |F i - f i| ≤ 1e-10 * grossForce [⟨1, ![0, 0, 0]⟩] [⟨2, ![1, 0, 0]⟩, ⟨3, ![1, 2, 0]⟩] i := by
  have hA : Apart [⟨1, ![0, 0, 0]⟩] [⟨2, ![1, 0, 0]⟩, ⟨3, ![1, 2, 0]⟩] := by
    intro a ha b hb e
    simp only [List.mem_cons, List.not_mem_nil, or_false] at ha hb
    subst ha
    rcases hb with rfl | rfl <;> · have := congrFun e 0; simp at this
  obtain ⟨F, T, h⟩ := (C112_defined (u := (2 : ℝ)⁻¹ ^ 53) (by positivity) (by norm_num) (binRound 53) (C112_binary 53) _ _).2 ⟨_, _, pmg_some hA⟩
  obtain ⟨f, t, e, hb⟩ := C112_double _ _ F T h (by simp)
  exact ⟨F, T, f, t, h, e, fun i => (hb i).1⟩

/-- Instance: double precision runs of the Yukawa program exist, two points one apart and a range of one tenth (ten ranges). -/
example : ∃ F T f t : V3, Flt.point_matrix_yukawa ((2 : ℝ)⁻¹ ^ 53) [⟨1, ![0, 0, 0]⟩] [⟨2, ![1, 0, 0]⟩] 3 (1 / 10) F T ∧
    point_matrix_yukawa [⟨1, ![0, 0, 0]⟩] [⟨2, ![1, 0, 0]⟩] 3 (1 / 10) = some (f, t) ∧
    ∀ i, |F i - f i| ≤ ((1 + relErr ((2 : ℝ)⁻¹ ^ 53) 25) * Real.exp (relErr ((2 : ℝ)⁻¹ ^ 53) 5 * 10) - 1) *
      |yukPairForce 3 (1 / 10) ⟨1, ![0, 0, 0]⟩ ⟨2, ![1, 0, 0]⟩ i| := by
  have e : (![1, 0, 0] : V3) - ![0, 0, 0] = ![1, 0, 0] := by funext i; fin_cases i <;> simp
  have m1 : modulus ![1, 0, 0] = 1 := by rw [modulus]; simp
  have hA : Apart [⟨1, ![0, 0, 0]⟩] [⟨2, ![1, 0, 0]⟩] := by
    intro a ha b hb e
    rw [List.mem_singleton] at ha hb
    subst ha hb
    have := congrFun e 0
    simp at this
  obtain ⟨F, T, h⟩ := (C113_defined (u := (2 : ℝ)⁻¹ ^ 53) (by positivity) (by norm_num) (binRound 53) (C112_binary 53) 3 (1 / 10) (by norm_num) _ _).2 hA
  obtain ⟨f, t, e', hb⟩ := C113_uniform (by positivity) (by norm_num) 3 (1 / 10) 10 (by norm_num) _ _ (by
    intro p hp q hq
    rw [List.mem_singleton] at hp hq
    subst hp hq
    rw [e, m1]; norm_num) F T h
  refine ⟨F, T, f, t, h, e', fun i => ?_⟩
  simpa using hb i

end Newt
