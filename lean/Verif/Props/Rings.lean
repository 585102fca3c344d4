import Verif.Spec.Rings
import Verif.Props.Glib
import Verif.Props.ForceConv

/-!
# C101: force and torque between rings of point masses
-/

namespace Newt

open Spec

theorem ringPts_rot (N : ℕ) (m r z a t : ℝ) :
    (ringPts N m r z a).map (fun p => (⟨p.mass, rotF t ![0, 0, 1] p.pos⟩ : Pt)) = ringPts N m r z (a + t) := by
  rw [ringPts, ringPts, List.map_map]
  apply List.map_congr_left; intro k _
  simp only [Function.comp, Pt.mk.injEq, true_and]
  have hez : (![0, 0, 1] : V3) ≠ 0 := fun h => by simpa using congrFun h 2
  have hu : modulus (![0, 0, 1] : V3) = 1 := by simp [modulus]
  have hu' : unitOf ![0, 0, 1] = ![0, 0, 1] := by
    funext i; simp [unitOf, hu]
  rw [rotF, hu', rotR_mulVec, show a + t + 2 * Real.pi * k / N = (a + 2 * Real.pi * k / N) + t by ring, Real.cos_add _ t, Real.sin_add _ t]
  generalize a + 2 * Real.pi * k / N = x
  funext i
  fin_cases i <;> simp [crossProduct] <;> ring

/-- C101: turning a ring about the z axis adds to its azimuth. -/
theorem C101_turn (N : ℕ) (m r z a t : ℝ) :
    rotate_point_array (ringPts N m r z a) t ![0, 0, 1] = some (ringPts N m r z (a + t)) := by
  rw [rotate_some (fun h => by simpa using congrFun h 2), ringPts_rot]

theorem list_map_range_cyclic {α : Type*} (f : ℕ → α) (N : ℕ) (h : f N = f 0) :
    ((List.range N).map fun k => f (k + 1)).Perm ((List.range N).map f) := by
  have h1 : (List.range (N + 1)).map f = f 0 :: (List.range N).map fun k => f (k + 1) := by
    rw [List.range_succ_eq_map, List.map_cons, List.map_map]; rfl
  have h2 : (List.range (N + 1)).map f = (List.range N).map f ++ [f 0] := by
    rw [List.range_succ, List.map_append, List.map_singleton, h]
  have h3 : (f 0 :: (List.range N).map fun k => f (k + 1)).Perm (f 0 :: (List.range N).map f) := by
    rw [← h1, h2]; exact List.perm_append_singleton _ _
  exact h3.cons_inv

/-- A ring turned by one step is the same ring. -/
theorem ringPts_step (N : ℕ) (hN : 0 < N) (m r z a : ℝ) :
    (ringPts N m r z (a + 2 * Real.pi / N)).Perm (ringPts N m r z a) := by
  have hN' : (N : ℝ) ≠ 0 := by exact_mod_cast hN.ne'
  have := list_map_range_cyclic (fun k : ℕ => (⟨m, ![r * Real.cos (a + 2 * Real.pi * k / N),
    r * Real.sin (a + 2 * Real.pi * k / N), z]⟩ : Pt)) N (by
      simp only [Pt.mk.injEq, true_and]
      rw [mul_div_assoc, div_self hN', mul_one, Real.cos_add_two_pi, Real.sin_add_two_pi]; simp)
  refine List.Perm.trans (List.Perm.of_eq ?_) this
  rw [ringPts]
  apply List.map_congr_left; intro k _
  push_cast
  rw [show a + 2 * Real.pi / N + 2 * Real.pi * k / N = a + 2 * Real.pi * (k + 1) / N by ring]

theorem sum_range_shift (g : ℤ → ℝ) (N : ℕ) (hg : ∀ i, g (i + N) = g i) (j : ℕ) :
    ∑ k ∈ Finset.range N, g ((k : ℤ) - j) = ∑ k ∈ Finset.range N, g k := by
  induction j with
  | zero => simp
  | succ j ih =>
    rw [← ih]
    cases N with
    | zero => simp
    | succ M =>
      rw [Finset.sum_range_succ', Finset.sum_range_succ (fun k : ℕ => g ((k : ℤ) - j))]
      congr 1
      · apply Finset.sum_congr rfl; intro k _; congr 1; push_cast; ring
      · rw [← hg (((0 : ℕ) : ℤ) - _)]; congr 1; push_cast; ring

theorem modulus_ring (d h R z a b : ℝ) :
    modulus ((![R * Real.cos b, R * Real.sin b, z] : V3) - ![d * Real.cos a, d * Real.sin a, h]) =
      Real.sqrt (ringGap d h R z (b - a)) := by
  rw [modulus, ringGap, Real.cos_sub]
  congr 1
  simp only [Pi.sub_apply, Matrix.cons_val]
  linear_combination d ^ 2 * Real.sin_sq_add_cos_sq a + R ^ 2 * Real.sin_sq_add_cos_sq b

theorem list_sum_apply (l : List V3) (i : Fin 3) : l.sum i = (l.map fun v => v i).sum := by
  induction l with
  | nil => rfl
  | cons v l ih => simp [ih]

/-- The step angle between point `j` of the first ring and point `k` of the second. -/
theorem ring_angle (N : ℕ) (a b : ℝ) (j k : ℕ) :
    b + 2 * Real.pi * k / N - (a + 2 * Real.pi * j / N) = b - a + 2 * Real.pi * ((k : ℤ) - (j : ℤ) : ℤ) / N := by
  push_cast; ring

theorem ring_double (N : ℕ) (hN : 0 < N) (f : ℝ → ℝ) (hf : ∀ x, f (x + 2 * Real.pi) = f x) (a b : ℝ) :
    ∑ j ∈ Finset.range N, ∑ k ∈ Finset.range N, f (b + 2 * Real.pi * k / N - (a + 2 * Real.pi * j / N)) =
      N * ∑ k ∈ Finset.range N, f (b - a + 2 * Real.pi * k / N) := by
  have hN' : (N : ℝ) ≠ 0 := by exact_mod_cast hN.ne'
  have h1 : ∀ j : ℕ, ∑ k ∈ Finset.range N, f (b + 2 * Real.pi * k / N - (a + 2 * Real.pi * j / N)) =
      ∑ k ∈ Finset.range N, f (b - a + 2 * Real.pi * k / N) := by
    intro j
    have := sum_range_shift (fun i : ℤ => f (b - a + 2 * Real.pi * i / N)) N (fun i => by
      rw [← hf (b - a + 2 * Real.pi * i / N)]
      congr 1; push_cast; field_simp; ring) j
    simp only [ring_angle]
    exact_mod_cast this
  rw [Finset.sum_congr rfl fun j _ => h1 j]
  simp

/-- C101: the force and the torque `point_matrix_gravity` returns for two rings of `N` equal masses: the sums of
the elementary formula over the `N` azimuth differences; with at least two masses the net force and torque are
along the z axis. -/
theorem C101_rings (N : ℕ) (hN : 0 < N) (m d h a M R z b : ℝ)
    (hg : ∀ k < N, 0 < ringGap d h R z (b - a + 2 * Real.pi * k / N)) :
    ∃ F T : V3, point_matrix_gravity (ringPts N m d h a) (ringPts N M R z b) = some (F, T) ∧
      T 2 = N * BIG_G * M * m * d * R * ∑ k ∈ Finset.range N, Real.sin (b - a + 2 * Real.pi * k / N) /
        Real.sqrt (ringGap d h R z (b - a + 2 * Real.pi * k / N)) ^ 3 ∧
      F 2 = N * BIG_G * M * m * (z - h) * ∑ k ∈ Finset.range N,
        1 / Real.sqrt (ringGap d h R z (b - a + 2 * Real.pi * k / N)) ^ 3 ∧
      (2 ≤ N → F 0 = 0 ∧ F 1 = 0 ∧ T 0 = 0 ∧ T 1 = 0) := by
  have hper : ∀ x, ringGap d h R z (x + 2 * Real.pi) = ringGap d h R z x := fun x => by
    rw [ringGap, ringGap, Real.cos_add_two_pi]
  -- every gap is one of the `N`
  have hN' : (N : ℝ) ≠ 0 := by exact_mod_cast hN.ne'
  have hgap : ∀ j < N, ∀ k < N, 0 < ringGap d h R z (b + 2 * Real.pi * k / N - (a + 2 * Real.pi * j / N)) := by
    intro j hj k hk
    by_cases hjk : j ≤ k
    · have := hg (k - j) (by omega)
      rw [Nat.cast_sub hjk] at this
      rw [ring_angle]; push_cast; exact this
    · have := hg (k + N - j) (by omega)
      rw [Nat.cast_sub (by omega), Nat.cast_add] at this
      rw [ring_angle, ← hper]
      convert this using 2
      push_cast; field_simp; ring
  have hap : Apart (ringPts N m d h a) (ringPts N M R z b) := by
    intro p hp q hq e
    rw [ringPts, List.mem_map] at hp hq
    obtain ⟨j, hj, rfl⟩ := hp
    obtain ⟨k, hk, rfl⟩ := hq
    have h1 := hgap j (List.mem_range.1 hj) k (List.mem_range.1 hk)
    have h2 := modulus_ring d h R z (a + 2 * Real.pi * j / N) (b + 2 * Real.pi * k / N)
    simp only at e
    rw [e, sub_self, (modulus_eq_zero _).2 rfl] at h2
    exact absurd h2.symm (Real.sqrt_pos.2 h1).ne'
  refine ⟨_, _, pmg_some hap, ?_, ?_, ?_⟩
  · have hd := ring_double N hN (fun x => BIG_G * M * m * d * R * (Real.sin x / Real.sqrt (ringGap d h R z x) ^ 3))
      (fun x => by rw [hper, Real.sin_add_two_pi]) a b
    simp only [← Finset.mul_sum] at hd
    rw [show N * BIG_G * M * m * d * R * ∑ k ∈ Finset.range N, Real.sin (b - a + 2 * Real.pi * k / N) /
        Real.sqrt (ringGap d h R z (b - a + 2 * Real.pi * k / N)) ^ 3 = N * (BIG_G * M * m * d * R *
        ∑ k ∈ Finset.range N, Real.sin (b - a + 2 * Real.pi * k / N) /
        Real.sqrt (ringGap d h R z (b - a + 2 * Real.pi * k / N)) ^ 3) by ring, ← hd]
    rw [totT_eq, list_sum_apply, ringPts.eq_1 N m d h a, List.map_map, List.map_map]
    rw [Finset.mul_sum]
    show ∑ j ∈ Finset.range N, _ = _
    apply Finset.sum_congr rfl; intro j _
    simp only [Function.comp]
    rw [list_sum_apply, ringPts, List.map_map, List.map_map, Finset.mul_sum]
    show ∑ k ∈ Finset.range N, _ = _
    apply Finset.sum_congr rfl; intro k _
    simp only [Function.comp, gW, modulus_ring]
    rw [Real.sin_sub]
    simp [crossProduct]
    ring
  · have hd := ring_double N hN (fun x => BIG_G * M * m * (z - h) * (1 / Real.sqrt (ringGap d h R z x) ^ 3))
      (fun x => by rw [hper]) a b
    simp only [← Finset.mul_sum] at hd
    rw [show N * BIG_G * M * m * (z - h) * ∑ k ∈ Finset.range N, 1 /
        Real.sqrt (ringGap d h R z (b - a + 2 * Real.pi * k / N)) ^ 3 = N * (BIG_G * M * m * (z - h) *
        ∑ k ∈ Finset.range N, 1 /
        Real.sqrt (ringGap d h R z (b - a + 2 * Real.pi * k / N)) ^ 3) by ring, ← hd]
    rw [totF, list_sum_apply, ringPts.eq_1 N m d h a, List.map_map, List.map_map]
    rw [Finset.mul_sum]
    show ∑ j ∈ Finset.range N, _ = _
    apply Finset.sum_congr rfl; intro j _
    simp only [Function.comp]
    rw [list_sum_apply, ringPts, List.map_map, List.map_map, Finset.mul_sum]
    show ∑ k ∈ Finset.range N, _ = _
    apply Finset.sum_congr rfl; intro k _
    simp only [Function.comp, gW, modulus_ring]
    simp
    ring
  · intro hN2
    have hez : (![0, 0, 1] : V3) ≠ 0 := fun h => by simpa using congrFun h 2
    obtain ⟨f, hf, A', B', hA', hB', hr⟩ := C05_gravity_rotation (ringPts N m d h a) (ringPts N M R z b)
      (2 * Real.pi / N) ![0, 0, 1] hez
    rw [C101_turn, Option.some.injEq] at hA' hB'
    rw [← hA', ← hB', C03_gravity_perm (ringPts_step N hN m d h a) (ringPts_step N hN M R z b), pmg_some hap,
      Option.map_some, Option.some.injEq, Prod.mk.injEq] at hr
    have hfe := isRotationAbout_unique hez hf (rotF_isRotation hez _)
    have hc : Real.cos (2 * Real.pi / N) ≠ 1 := by
      intro h1
      have h2 : (2 : ℝ) ≤ N := by exact_mod_cast hN2
      rw [Real.cos_eq_one_iff_of_lt_of_lt] at h1
      · have : 0 < 2 * Real.pi / N := by have := Real.pi_pos; positivity
        linarith
      · have : 0 < 2 * Real.pi / N := by have := Real.pi_pos; positivity
        linarith [Real.pi_pos]
      · rw [div_lt_iff₀ (by linarith)]; nlinarith [Real.pi_pos]
    have key : ∀ v : V3, v = f v → v 0 = 0 ∧ v 1 = 0 := by
      intro v hv
      have hu : modulus (![0, 0, 1] : V3) = 1 := by simp [modulus]
      have hu' : unitOf ![0, 0, 1] = ![0, 0, 1] := by funext i; simp [unitOf, hu]
      rw [hfe, rotF, hu', rotR_mulVec] at hv
      have e0 := congrFun hv 0
      have e1 := congrFun hv 1
      simp [crossProduct] at e0 e1
      change v 0 = v 0 + _ + _ at e0
      change v 1 = v 1 + _ + _ at e1
      set c := Real.cos (2 * Real.pi / N)
      set s := Real.sin (2 * Real.pi / N)
      have hcs : s ^ 2 + c ^ 2 = 1 := Real.sin_sq_add_cos_sq _
      have h1c : 0 < 1 - c := by
        have : c ≤ 1 := Real.cos_le_one _
        rcases this.lt_or_eq with h | h
        · linarith
        · exact absurd h hc
      have hdet : (v 0) * (2 * (1 - c)) = 0 := by linear_combination (1 - c) * e0 - s * e1 - v 0 * hcs
      have hdet' : (v 1) * (2 * (1 - c)) = 0 := by linear_combination (1 - c) * e1 + s * e0 - v 1 * hcs
      constructor
      · rcases mul_eq_zero.1 hdet with h | h
        · exact h
        · linarith
      · rcases mul_eq_zero.1 hdet' with h | h
        · exact h
        · linarith
    exact ⟨(key _ hr.1).1, (key _ hr.1).2, (key _ hr.2).1, (key _ hr.2).2⟩

theorem ringPts_modulus {N : ℕ} {m r z a : ℝ} {p : Pt} (hp : p ∈ ringPts N m r z a) :
    modulus p.pos = Real.sqrt (r ^ 2 + z ^ 2) := by
  rw [ringPts, List.mem_map] at hp
  obtain ⟨k, _, rfl⟩ := hp
  rw [modulus]
  congr 1
  simp only [Matrix.cons_val]
  linear_combination r ^ 2 * Real.sin_sq_add_cos_sq (a + 2 * Real.pi * k / N)

/-- C101: the torque computed from the moments of the two rings, the inner one turned by `phi`, converges to the
same formula. -/
theorem C101_multipole (N : ℕ) (hN : 0 < N) (m d h a M R z b phi : ℝ) (hin : d ^ 2 + h ^ 2 < R ^ 2 + z ^ 2)
    (q : ∀ L, Mom L) (hq : ∀ L, qmoments L (ringPts N m d h a) = some (q L)) (t : ℕ → ℝ)
    (ht : ∀ L, torques_at_angle (torque_lm (q L) (Qmomentsb L (ringPts N M R z b)) BIG_G).nc
      (torque_lm (q L) (Qmomentsb L (ringPts N M R z b)) BIG_G).ns phi false = some (t L)) :
    Filter.Tendsto t Filter.atTop (nhds (N * BIG_G * M * m * d * R *
      ∑ k ∈ Finset.range N, Real.sin (b - (a + phi) + 2 * Real.pi * k / N) /
        Real.sqrt (ringGap d h R z (b - (a + phi) + 2 * Real.pi * k / N)) ^ 3)) := by
  obtain ⟨A', F, T, h1, h2, h3⟩ := C55_torque_converges (ringPts N m d h a) (ringPts N M R z b) phi
    (Real.sqrt (d ^ 2 + h ^ 2)) (Real.sqrt (R ^ 2 + z ^ 2)) (Real.sqrt_nonneg _)
    (Real.sqrt_lt_sqrt (by positivity) hin) (fun p hp => (ringPts_modulus hp).le)
    (fun p hp => (ringPts_modulus hp).ge) q hq t ht
  rw [C101_turn, Option.some.injEq] at h1
  subst h1
  have hg : ∀ k < N, 0 < ringGap d h R z (b - (a + phi) + 2 * Real.pi * k / N) := by
    intro k _
    have e := modulus_ring d h R z 0 (b - (a + phi) + 2 * Real.pi * k / N)
    rw [sub_zero] at e
    refine Real.sqrt_pos.1 (e ▸ modulus_pos fun h0 => ?_)
    have e0 := congrFun h0 0
    have e1 := congrFun h0 1
    have e2 := congrFun h0 2
    simp only [Pi.sub_apply, Matrix.cons_val, Real.cos_zero, Real.sin_zero, Pi.zero_apply] at e0 e1 e2
    generalize b - (a + phi) + 2 * Real.pi * k / N = x at e0 e1 e2
    have := Real.sin_sq_add_cos_sq x
    have a0 : R * Real.cos x = d := by linarith
    have a1 : R * Real.sin x = 0 := by linarith
    have a2 : z = h := by linarith
    have : R ^ 2 = d ^ 2 := by
      calc R ^ 2 = (R * Real.cos x) ^ 2 + (R * Real.sin x) ^ 2 := by linear_combination -R ^ 2 * this
        _ = d ^ 2 := by rw [a0, a1]; ring
    rw [a2] at hin; linarith
  obtain ⟨F', T', g1, g2, -, -⟩ := C101_rings N hN m d h (a + phi) M R z b hg
  rw [h2, Option.some.injEq, Prod.mk.injEq] at g1
  rw [← g2, ← g1.2]; exact h3

/-- C101, two masses a side in the plane `z = 0`: the formula of the quadrupole test. -/
theorem C101_two (m d M R a : ℝ) (hd : |d| ≠ |R|) :
    ∃ Q F T, rotate_point_array [⟨M, ![R, 0, 0]⟩, ⟨M, ![-R, 0, 0]⟩] a ![0, 0, 1] = some Q ∧
      point_matrix_gravity [⟨m, ![d, 0, 0]⟩, ⟨m, ![-d, 0, 0]⟩] Q = some (F, T) ∧
      T 2 = 2 * BIG_G * M * m * d * R * Real.sin a *
        (1 / Real.sqrt (d ^ 2 + R ^ 2 - 2 * d * R * Real.cos a) ^ 3 -
          1 / Real.sqrt (d ^ 2 + R ^ 2 + 2 * d * R * Real.cos a) ^ 3) := by
  have e : ∀ m r : ℝ, ([⟨m, ![r, 0, 0]⟩, ⟨m, ![-r, 0, 0]⟩] : PtArray) = ringPts 2 m r 0 0 := by
    intro m r
    simp [ringPts, List.range_succ]
  have hpos : ∀ c : ℝ, |c| ≤ 1 → 0 < d ^ 2 + R ^ 2 - 2 * d * R * c := by
    intro c hc
    have h1 : (|d| - |R|) ^ 2 > 0 := by
      have : |d| - |R| ≠ 0 := sub_ne_zero.2 hd
      positivity
    have h2 : d * R * c ≤ |d| * |R| := by
      calc d * R * c ≤ |d * R * c| := le_abs_self _
        _ = |d| * |R| * |c| := by rw [abs_mul, abs_mul]
        _ ≤ |d| * |R| * 1 := by gcongr
        _ = _ := mul_one _
    have h3 := sq_abs d
    have h4 := sq_abs R
    nlinarith
  have hg : ∀ k : ℕ, k < 2 → 0 < ringGap d 0 R 0 (0 + a - 0 + 2 * Real.pi * k / (2 : ℕ)) := by
    intro k _
    have := hpos _ (Real.abs_cos_le_one (0 + a - 0 + 2 * Real.pi * k / (2 : ℕ)))
    rw [ringGap]; linarith
  obtain ⟨F, T, h1, h2, -, -⟩ := C101_rings 2 (by norm_num) m d 0 0 M R 0 (0 + a) hg
  refine ⟨_, F, T, by rw [e, C101_turn], by rw [e]; exact h1, ?_⟩
  rw [h2, Finset.sum_range_succ, Finset.sum_range_one]
  have e1 : (0 + a - 0 + 2 * Real.pi * ((1 : ℕ) : ℝ) / ((2 : ℕ) : ℝ) : ℝ) = a + Real.pi := by push_cast; ring
  have e0 : (0 + a - 0 + 2 * Real.pi * ((0 : ℕ) : ℝ) / ((2 : ℕ) : ℝ) : ℝ) = a := by push_cast; ring
  rw [e1, e0, ringGap, ringGap, Real.cos_add_pi, Real.sin_add_pi]
  rw [show d ^ 2 + R ^ 2 + (0 - 0) ^ 2 - 2 * d * R * Real.cos a = d ^ 2 + R ^ 2 - 2 * d * R * Real.cos a by ring,
    show d ^ 2 + R ^ 2 + (0 - 0) ^ 2 - 2 * d * R * -Real.cos a = d ^ 2 + R ^ 2 + 2 * d * R * Real.cos a by ring]
  push_cast; ring

/-- The hypotheses are met by two rings of three masses at different heights, and by two pairs of masses. -/
example : (∀ k : ℕ, k < 3 → 0 < ringGap 1 0 2 1 (1 - 0 + 2 * Real.pi * k / (3 : ℕ))) ∧ |(1 : ℝ)| ≠ |(2 : ℝ)| := by
  refine ⟨fun k _ => ?_, by norm_num⟩
  have := Real.cos_le_one (1 - 0 + 2 * Real.pi * k / (3 : ℕ))
  rw [ringGap]; nlinarith

end Newt
