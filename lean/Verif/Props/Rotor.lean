import Verif.Model.Examples
import Verif.Spec.Rotor
import Verif.Props.Shell

/-!
# C96, C97: rotors with N-fold symmetry; turning step by step (`newt/example`)
-/

namespace Newt

open Spec

/-- The array turned about z. -/
noncomputable def turned {L : ℕ} (q : Mom L) (phi : ℝ) : Mom L :=
  Mom.ofFn L fun l m => if m.natAbs ≤ l then Complex.exp (-Complex.I * m * phi) * q.get l m else q.get l m

theorem turned_get {L : ℕ} (q : Mom L) (phi : ℝ) {l : ℕ} {m : ℤ} (hl : l ≤ L) (hm : m.natAbs ≤ l) :
    (turned q phi).get l m = Complex.exp (-Complex.I * m * phi) * q.get l m := by
  rw [turned, Mom.get_ofFn _ hl (by omega), if_pos hm]

theorem turned_get' {L : ℕ} (q : Mom L) (phi : ℝ) {l : ℕ} {m : ℤ} (hl : l ≤ L) (hmL : m.natAbs ≤ L) (hm : l < m.natAbs) :
    (turned q phi).get l m = q.get l m := by
  rw [turned, Mom.get_ofFn _ hl (by omega), if_neg (by omega)]

theorem rotate_turned {L : ℕ} (q : Mom L) (phi : ℝ) : rotate_qlm q phi 0 0 = some (turned q phi) := by
  obtain ⟨q', h1, h2, h3⟩ := C27_about_z q phi 0
  rw [h1, Option.some.injEq]
  apply Mom.ext_get
  intro l m hl hm
  by_cases h : m.natAbs ≤ l
  · rw [h2 l m hl h, turned_get q phi hl h]; simp
  · rw [h3 l m hl hm (by omega), turned_get' q phi hl hm (by omega)]

theorem turned_turned {L : ℕ} (q : Mom L) (a b : ℝ) : turned (turned q a) b = turned q (a + b) := by
  apply Mom.ext_get
  intro l m hl hm
  by_cases h : m.natAbs ≤ l
  · rw [turned_get _ _ hl h, turned_get _ _ hl h, turned_get _ _ hl h, ← mul_assoc, ← Complex.exp_add]
    congr 2; push_cast; ring
  · rw [turned_get' _ _ hl hm (by omega), turned_get' _ _ hl hm (by omega), turned_get' _ _ hl hm (by omega)]

theorem turned_zero {L : ℕ} (q : Mom L) : turned q 0 = q := by
  apply Mom.ext_get
  intro l m hl hm
  by_cases h : m.natAbs ≤ l
  · rw [turned_get _ _ hl h]; simp
  · rw [turned_get' _ _ hl hm (by omega)]

theorem madd_get {L : ℕ} (p q : Mom L) {l : ℕ} {m : ℤ} (hl : l ≤ L) (hm : m.natAbs ≤ L) :
    (Ex.madd p q).get l m = p.get l m + q.get l m := Mom.get_ofFn _ hl hm

/-- Accumulating turned copies never fails and adds up the turned arrays. -/
theorem addTurned_some {L : ℕ} (q : Mom L) (as : List ℝ) : ∀ tot : Mom L, ∃ r, Ex.addTurned tot q as = some r ∧
    ∀ l m, l ≤ L → m.natAbs ≤ L → r.get l m = tot.get l m + (as.map fun a => (turned q a).get l m).sum := by
  induction as with
  | nil => exact fun tot => ⟨tot, rfl, fun l m _ _ => by simp⟩
  | cons a as ih =>
    intro tot
    obtain ⟨r, h1, h2⟩ := ih (Ex.madd tot (turned q a))
    refine ⟨r, by rw [Ex.addTurned, rotate_turned, Option.bind_some, h1], fun l m hl hm => ?_⟩
    rw [h2 l m hl hm, madd_get _ _ hl hm, List.map_cons, List.sum_cons]; ring

/-- Sum of the phases of equally spaced copies. -/
theorem phase_sum (N : ℕ) (hN : 0 < N) (m : ℤ) :
    ∑ k ∈ Finset.range N, Complex.exp (-Complex.I * m * (2 * Real.pi * k / N : ℝ)) = if (N : ℤ) ∣ m then (N : ℂ) else 0 := by
  have hN0 : (N : ℂ) ≠ 0 := by exact_mod_cast hN.ne'
  set z : ℂ := Complex.exp (-Complex.I * m * (2 * Real.pi / N : ℝ)) with hz
  have hk : ∀ k : ℕ, Complex.exp (-Complex.I * m * (2 * Real.pi * k / N : ℝ)) = z ^ k := by
    intro k
    rw [hz, ← Complex.exp_nat_mul]
    congr 1; push_cast; ring
  have hzN : z ^ N = 1 := by
    rw [hz, ← Complex.exp_nat_mul, Complex.exp_eq_one_iff]
    refine ⟨-m, ?_⟩
    push_cast
    field_simp
  have hz1 : z = 1 ↔ (N : ℤ) ∣ m := by
    rw [hz, Complex.exp_eq_one_iff]
    have hpi : (Real.pi : ℂ) ≠ 0 := by exact_mod_cast Real.pi_ne_zero
    constructor
    · rintro ⟨n, hn⟩
      refine ⟨-n, ?_⟩
      have : (m : ℂ) = N * (-n) := by
        push_cast at hn
        field_simp at hn
        linear_combination -hn
      exact_mod_cast this
    · rintro ⟨n, rfl⟩
      refine ⟨-n, ?_⟩
      push_cast
      field_simp
  simp only [hk]
  split_ifs with h
  · rw [hz1.2 h]; simp
  · have := mul_neg_geom_sum z N
    rw [hzN, sub_self] at this
    exact (mul_eq_zero.1 this).resolve_left fun e => h (hz1.1 (by linear_combination -e))

/-- C96: adding the `N - 1` turned copies to an array (as the example scripts do) multiplies the moments with `N | m` by `N`
and removes all others. -/
theorem C96_copies {L : ℕ} (N : ℕ) (hN : 0 < N) (q : Mom L) :
    ∃ r, Ex.addTurned q q ((List.range (N - 1)).map fun k : ℕ => 2 * Real.pi * (k + 1) / N) = some r ∧ FoldSym N r ∧
      ∀ (l : ℕ) (m : ℤ), l ≤ L → m.natAbs ≤ l → (N : ℤ) ∣ m → r.get l m = N * q.get l m := by
  obtain ⟨r, h1, h2⟩ := addTurned_some q ((List.range (N - 1)).map fun k : ℕ => 2 * Real.pi * (k + 1) / N) q
  have key : ∀ (l : ℕ) (m : ℤ), l ≤ L → m.natAbs ≤ l → r.get l m = (if (N : ℤ) ∣ m then (N : ℂ) else 0) * q.get l m := by
    intro l m hl hm
    rw [h2 l m hl (by omega), ← phase_sum N hN m, List.map_map]
    simp only [Function.comp_def, turned_get q _ hl hm]
    obtain ⟨n, rfl⟩ : ∃ n, N = n + 1 := ⟨N - 1, by omega⟩
    rw [Finset.sum_range_succ', add_mul, Finset.sum_mul]
    simp only [Nat.add_sub_cancel]
    have hl : ∀ f : ℕ → ℂ, ((List.range n).map f).sum = ∑ k ∈ Finset.range n, f k := fun f => rfl
    rw [hl, add_comm]
    congr 1
    · refine Finset.sum_congr rfl fun k _ => ?_
      push_cast; rfl
    · simp
  refine ⟨r, h1, fun l m hl hm hd => ?_, fun l m hl hm hd => ?_⟩
  · rw [key l m hl hm, if_neg hd, zero_mul]
  · rw [key l m hl hm, if_pos hd]

/-- C96: an array has `N`-fold symmetry exactly when turning it by `2 pi / N` changes nothing. -/
theorem C96_invariant {L : ℕ} (N : ℕ) (hN : 0 < N) (q : Mom L) :
    FoldSym N q ↔ rotate_qlm q (2 * Real.pi / N) 0 0 = some q := by
  have hN0 : (N : ℂ) ≠ 0 := by exact_mod_cast hN.ne'
  have hpi : (Real.pi : ℂ) ≠ 0 := by exact_mod_cast Real.pi_ne_zero
  have hz1 : ∀ m : ℤ, Complex.exp (-Complex.I * m * (2 * Real.pi / N : ℝ)) = 1 ↔ (N : ℤ) ∣ m := by
    intro m
    rw [Complex.exp_eq_one_iff]
    constructor
    · rintro ⟨n, hn⟩
      refine ⟨-n, ?_⟩
      have : (m : ℂ) = N * (-n) := by
        push_cast at hn
        field_simp at hn
        linear_combination -hn
      exact_mod_cast this
    · rintro ⟨n, rfl⟩
      refine ⟨-n, ?_⟩
      push_cast
      field_simp
  rw [rotate_turned, Option.some.injEq]
  constructor
  · intro h
    apply Mom.ext_get
    intro l m hl hm
    by_cases hml : m.natAbs ≤ l
    · rw [turned_get _ _ hl hml]
      by_cases hd : (N : ℤ) ∣ m
      · rw [(hz1 m).2 hd, one_mul]
      · rw [h l m hl hml hd, mul_zero]
    · rw [turned_get' _ _ hl hm (by omega)]
  · intro h l m hl hml hd
    have h1 := congrArg (fun r : Mom L => r.get l m) h
    simp only [turned_get q _ hl hml] at h1
    by_contra h0
    exact hd ((hz1 m).1 (mul_right_cancel₀ h0 (h1.trans (one_mul _).symm)))

/-- C96: the moments of a body made of `N` equally spaced copies have `N`-fold symmetry and are the array the scripts
build. -/
theorem C96_ring (L N : ℕ) (hN : 0 < N) (b : Body) :
    FoldSym N (Mom.ofFn L (b.ring N).inner) ∧
    Ex.addTurned (Mom.ofFn L b.inner) (Mom.ofFn L b.inner) ((List.range (N - 1)).map fun k : ℕ => 2 * Real.pi * (k + 1) / N)
      = some (Mom.ofFn L (b.ring N).inner) := by
  obtain ⟨r, h1, h2, h3⟩ := C96_copies N hN (Mom.ofFn L b.inner)
  have hr : r = Mom.ofFn L (b.ring N).inner := by
    obtain ⟨r', e1, e2⟩ := addTurned_some (Mom.ofFn L b.inner) ((List.range (N - 1)).map fun k : ℕ => 2 * Real.pi * (k + 1) / N)
      (Mom.ofFn L b.inner)
    rw [h1, Option.some.injEq] at e1
    subst e1
    have hrot : ∀ phi, turned (Mom.ofFn L b.inner) phi = Mom.ofFn L (b.rotate phi 0 0).inner := by
      intro phi
      have := C56_rotate L b phi 0 0
      rw [rotate_turned, Option.some.injEq] at this
      exact this
    apply Mom.ext_get
    intro l m hl hm
    have hring : (b.ring N).inner l m = ((List.range N).map fun k : ℕ => (b.rotate (2 * Real.pi * k / N) 0 0).inner l m).sum := by
      rw [Body.ring, Body.inner, List.map_flatMap, List.flatMap, List.sum_flatten, List.map_map]
      rfl
    rw [e2 l m hl hm, Mom.get_ofFn _ hl hm, Mom.get_ofFn _ hl hm, hring, List.map_map]
    obtain ⟨n, rfl⟩ : ∃ n, N = n + 1 := ⟨N - 1, by omega⟩
    rw [List.range_succ_eq_map, List.map_cons, List.sum_cons, List.map_map]
    simp only [Function.comp_def, hrot, Mom.get_ofFn _ hl hm, Nat.add_sub_cancel]
    congr 1
    · have := hrot 0
      rw [turned_zero] at this
      have h5 := congrArg (fun r : Mom L => r.get l m) this
      simp only [Mom.get_ofFn _ hl hm] at h5
      simpa using h5
    · congr 1
      refine List.map_congr_left fun k _ => ?_
      push_cast
      rfl
  rw [← hr]
  exact ⟨h2, h1⟩

/-- C96: harmonics of the torque between objects with `N`- and `M`-fold symmetry: only those divisible by both. -/
theorem C96_torque {L : ℕ} (N M : ℕ) (q Q : Mom L) (hq : FoldSym N q) (hQ : FoldSym M Q) (ht : Tri q) (G : ℝ) (k : ℕ)
    (hk : k ≤ L) (h : ¬ (N ∣ k ∧ M ∣ k)) :
    (torque_lm q Q G).nc.getD k 0 = 0 ∧ (torque_lm q Q G).ns.getD k 0 = 0 := by
  have hz : ∀ (l : ℕ) (m : ℤ), l ≤ L → m.natAbs = k → (torque_lm q Q G).nlm.get l m = 0 := by
    intro l m hl hm
    rw [(C30_entries q Q G l m hl (by omega)).1]
    by_cases hml : m.natAbs ≤ l
    · by_cases hN : (N : ℤ) ∣ m
      · have hM : ¬ (M : ℤ) ∣ m := fun hM => h ⟨by rw [← hm]; exact Int.natCast_dvd.1 hN, by rw [← hm]; exact Int.natCast_dvd.1 hM⟩
        rw [hQ l m hl hml hM, mul_zero]
      · rw [hq l m hl hml hN, mul_zero, zero_mul]
    · rw [ht l m hl (by omega) (by omega), mul_zero, zero_mul]
  have hc : ∀ m : ℤ, m.natAbs = k → colSum (torque_lm q Q G).nlm m = 0 := fun m hm =>
    Finset.sum_eq_zero fun l hl => hz l m (by rw [Finset.mem_range] at hl; omega) hm
  have e1 : (torque_lm q Q G).nc = (List.range (L + 1)).map fun k : ℕ =>
      colSum (torque_lm q Q G).nlm k + colSum (torque_lm q Q G).nlm (-(k : ℤ)) := rfl
  have e2 : (torque_lm q Q G).ns = (List.range (L + 1)).map fun k : ℕ =>
      colSum (torque_lm q Q G).nlm k - colSum (torque_lm q Q G).nlm (-(k : ℤ)) := rfl
  rw [e1, e2]
  simp [List.getD_eq_getElem?_getD, List.getElem?_range (show k < L + 1 by omega), hc (k : ℤ) (by omega), hc (-(k : ℤ)) (by omega)]

/-- C96: the force and the torque of a rotor with `N`-fold symmetry are the same after a turn by `2 pi / N`. -/
theorem C96_periodic {L : ℕ} (N : ℕ) (hN : 0 < N) (q Q : Mom L) (hq : FoldSym N q) (phi x y z G : ℝ) :
    rotate_qlm q (phi + 2 * Real.pi / N) 0 0 = rotate_qlm q phi 0 0 ∧
    (rotate_qlm q (phi + 2 * Real.pi / N) 0 0).bind (fun r => multipole_force r Q x y z G) =
      (rotate_qlm q phi 0 0).bind (fun r => multipole_force r Q x y z G) ∧
    (Valid q → Valid Q → torques_at_angle (torque_lm q Q G).nc (torque_lm q Q G).ns (phi + 2 * Real.pi / N) false =
      torques_at_angle (torque_lm q Q G).nc (torque_lm q Q G).ns phi false) := by
  have h1 := (C96_invariant N hN q).1 hq
  rw [rotate_turned, Option.some.injEq] at h1
  have key : turned q (phi + 2 * Real.pi / N) = turned q phi := by
    rw [add_comm, ← turned_turned, h1]
  refine ⟨by rw [rotate_turned, rotate_turned, key], by rw [rotate_turned, rotate_turned, key], fun hv hV => ?_⟩
  obtain ⟨t, e1, e2⟩ := torque_lm_angle G q Q hv hV (phi + 2 * Real.pi / N) false
  obtain ⟨t', e1', e2'⟩ := torque_lm_angle G q Q hv hV phi false
  have hr : ∀ p, rotM p 0 0 q = turned q p := by
    intro p
    have := rotate_qlm_rotM q p 0 0
    rw [rotate_turned, Option.some.injEq] at this
    exact this.symm
  rw [e1, e1', Option.some.injEq]
  simp only [Bool.false_eq_true, if_false, one_mul, hr] at e2 e2'
  rw [key, ← e2'] at e2
  exact_mod_cast e2

/-- C96 is not vacuous: a three-fold rotor made of one off-axis point mass has a non-zero `l = m = 3` moment, and
none of order 1 or 2. -/
example : ∃ r : Mom 3, Ex.addTurned (Mom.ofFn 3 fun _ _ => 1) (Mom.ofFn 3 fun _ _ => 1)
      [2 * Real.pi * 1 / 3, 2 * Real.pi * 2 / 3] = some r ∧ r.get 3 3 = 3 ∧ r.get 3 1 = 0 ∧ r.get 2 2 = 0 := by
  obtain ⟨r, h1, h2, h3⟩ := C96_copies 3 (by norm_num) (Mom.ofFn 3 fun _ _ => 1)
  refine ⟨r, ?_, ?_, ?_, ?_⟩
  · rw [← h1]; simp [List.range_succ]; norm_num
  · rw [h3 3 3 (by norm_num) (by decide) (by norm_num), Mom.get_ofFn _ (by norm_num) (by decide)]; norm_num
  · exact h2 3 1 (by norm_num) (by decide) (by norm_num)
  · exact h2 2 2 (by norm_num) (by decide) (by norm_num)

/-! ## C97: turning step by step -/

theorem step_turned {L : ℕ} (dphi : ℝ) : ∃ ds, wignerDl (L + 1) dphi 0 0 = some ds ∧
    ∀ q : Mom L, rotate_qlm_Ds q ds.dropLast false = turned q dphi := by
  obtain ⟨ds, h1, h2, h3⟩ := wignerDl_some (L + 1) (by omega) dphi 0 0
  refine ⟨ds, h1, fun q => ?_⟩
  have hlen : ds.dropLast.length = L + 1 := by rw [List.length_dropLast]; omega
  have hget : ∀ (l : ℕ) (a b : ℤ), l ≤ L → a.natAbs ≤ l → b.natAbs ≤ l → ds.dropLast.getD l 0 a b = bigD l dphi 0 0 a b := by
    intro l a b hl ha hb
    rw [← h3 l a b (by omega) ha hb, List.getD_eq_getElem?_getD, List.getD_eq_getElem?_getD, List.getElem?_dropLast, if_pos (by omega)]
  have e := rotate_qlm_closed q dphi 0 0
  rw [rotate_turned, Option.some.injEq] at e
  rw [e, rotate_qlm_Ds_closed q ds.dropLast (fun l => bigD l dphi 0 0) hlen false (bigD_zero _ _ _) hget]
  simp

/-- C97: turning an array `k` times by one step with precomputed matrices is one turn by `k` steps, for any number of
steps; no error accumulates in exact arithmetic. -/
theorem C97_stepped {L : ℕ} (q : Mom L) (dphi : ℝ) (k : ℕ) : Ex.stepped q dphi k = rotate_qlm q (k * dphi) 0 0 := by
  obtain ⟨ds, h1, h2⟩ := step_turned (L := L) dphi
  rw [Ex.stepped, h1, Option.map_some, rotate_turned, Option.some.injEq]
  induction k with
  | zero => simp [turned_zero]
  | succ k ih =>
    rw [Function.iterate_succ_apply', ih, h2, turned_turned]
    congr 1; push_cast; ring

/-- C97: after `nAng` steps of `2 pi / nAng` the array is back where it began. -/
theorem C97_full_circle {L : ℕ} (q : Mom L) (nAng : ℕ) (h : 0 < nAng) : Ex.stepped q (2 * Real.pi / nAng) nAng = some q := by
  have hn : (nAng : ℝ) ≠ 0 := by exact_mod_cast h.ne'
  rw [C97_stepped, show (nAng : ℝ) * (2 * Real.pi / nAng) = 2 * Real.pi by field_simp]
  have := (C96_invariant 1 one_pos q).1 fun l m _ _ hd => absurd (by simp) hd
  simpa using this

/-- C97: the forces of the script that turns the rotor step by step are those of the script that computes every angle from
the original rotor, one step later. -/
theorem C97_force {L : ℕ} (rotor tm : Mom L) (nAng k : ℕ) : Ex.forceStepped rotor tm nAng k = Ex.forceAt rotor tm nAng (k + 1) := by
  rw [Ex.forceStepped, Ex.forceAt, C97_stepped]

/-- C97: passing the matrices without dropping the extra one leaves the rotor where it is, without a message. -/
theorem C97_extra_matrix {L : ℕ} (q : Mom L) (dphi : ℝ) (ds : List (ℤ → ℤ → ℂ)) (h : wignerDl (L + 1) dphi 0 0 = some ds) :
    rotate_qlm_Ds q ds false = q := by
  obtain ⟨ds', h1, h2, -⟩ := wignerDl_some (L + 1) (by omega) dphi 0 0
  rw [h1, Option.some.injEq] at h
  subst h
  exact (C47_Ds_mismatch q ds' false (by omega)).1

end Newt
