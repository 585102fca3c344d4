import Verif.Props.Rotor
import Verif.Props.Qlm
import Verif.Proofs.Addition
import Verif.Spec.Wigner

/-!
# C106: bodies of revolution
-/

namespace Newt

open Spec Finset Qlm

theorem solidS_ez (l : ℕ) (m : ℤ) : solidS l m ![0, 0, 1] = if m = 0 then ((Real.sqrt ((2 * l + 1) / (4 * Real.pi)) : ℝ) : ℂ) else 0 := by
  rw [solidS, Rsol_ez]
  split_ifs with h
  · subst h
    have : Nlm l 0 = Real.sqrt ((2 * l + 1) / (4 * Real.pi)) * l.factorial := by
      rw [Nlm, Real.sqrt_mul (by have := Real.pi_pos; positivity)]
      congr 1
      rw [show ((l : ℤ) + 0).toNat = l by omega, show ((l : ℤ) - 0).toNat = l by omega, Real.sqrt_mul_self (by positivity)]
    have hf : (l.factorial : ℂ) ≠ 0 := by exact_mod_cast l.factorial_ne_zero
    rw [this]; push_cast; field_simp; rw [one_pow, mul_one]
  · rw [mul_zero]

theorem euler_ez (alpha beta gamma : ℝ) : rz alpha (ry beta (rz gamma ![0, 0, 1])) = pointing alpha beta := by
  funext i
  fin_cases i <;> simp [rz, ry, pointing, mul_comm]

/-- The middle column of a Wigner matrix is a spherical harmonic. -/
theorem bigD_col (l : ℕ) (a : ℤ) (ha : a.natAbs ≤ l) (alpha beta gamma : ℝ) :
    solidS l a (pointing alpha beta) = bigD l alpha beta gamma a 0 * ((Real.sqrt ((2 * l + 1) / (4 * Real.pi)) : ℝ) : ℂ) := by
  rw [← euler_ez alpha beta gamma, solidS_rot l a ha, Finset.sum_eq_single 0]
  · rw [solidS_ez, if_pos rfl]
  · intro b _ hb
    rw [solidS_ez, if_neg hb, mul_zero]
  · intro h; simp at h

theorem sqrt_norm_ne (l : ℕ) : ((Real.sqrt ((2 * l + 1) / (4 * Real.pi)) : ℝ) : ℂ) ≠ 0 := by
  have := Real.pi_pos
  exact_mod_cast (Real.sqrt_pos.2 (by positivity : (0 : ℝ) < (2 * l + 1) / (4 * Real.pi))).ne'

/-- C106: the middle column of the matrices `wignerDl` returns: the (conjugate) spherical harmonics of the direction the z axis is
turned to. -/
theorem C106_column (L : ℕ) (hL : 1 ≤ L) (alpha beta gamma : ℝ) :
    ∃ ds, wignerDl L alpha beta gamma = some ds ∧ ∀ (l : ℕ) (m : ℤ), l ≤ L → m.natAbs ≤ l →
      ((Real.sqrt ((2 * l + 1) / (4 * Real.pi)) : ℝ) : ℂ) * ds.getD l 0 m 0 = solidS l m (pointing alpha beta) := by
  obtain ⟨ds, h1, -, h2⟩ := wignerDl_some L hL alpha beta gamma
  refine ⟨ds, h1, fun l m hl hm => ?_⟩
  rw [h2 l m 0 hl hm (by simp), bigD_col l m hm alpha beta gamma, mul_comm]

/-- C106: the central entry is the Legendre polynomial of `cos beta`, whatever the other angles. -/
theorem C106_central (L : ℕ) (hL : 1 ≤ L) (alpha beta gamma : ℝ) :
    ∃ ds, wignerDl L alpha beta gamma = some ds ∧ ∀ l ≤ L, ds.getD l 0 0 0 = (bonnetP (Real.cos beta) l : ℝ) := by
  obtain ⟨ds, h1, h2⟩ := C106_column L hL alpha beta gamma
  refine ⟨ds, h1, fun l hl => ?_⟩
  have h := h2 l 0 hl (by simp)
  have hp := Rsol_zero_pz (pointing alpha beta) l
  have hn : nsq (pointing alpha beta) = 1 := by
    have h1 := Real.sin_sq_add_cos_sq alpha
    have h2 := Real.sin_sq_add_cos_sq beta
    simp only [nsq, pointing, Matrix.cons_val]
    linear_combination Real.sin beta ^ 2 * h1 + h2
  have hz : pointing alpha beta 2 = Real.cos beta := rfl
  have hpl : ∀ l, pz (Real.cos beta) 1 l = bonnetP (Real.cos beta) l := by
    intro l
    induction l using Nat.strongRecOn with
    | _ n ih =>
      rcases n with _ | _ | k
      · rfl
      · rfl
      · rw [pz, bonnetP, ih k (by omega), ih (k + 1) (by omega)]; ring
  rw [hn, hz, hpl] at hp
  have hs : solidS l 0 (pointing alpha beta) = ((Real.sqrt ((2 * l + 1) / (4 * Real.pi)) : ℝ) : ℂ) * (bonnetP (Real.cos beta) l : ℝ) := by
    have : Nlm l 0 = Real.sqrt ((2 * l + 1) / (4 * Real.pi)) * l.factorial := by
      rw [Nlm, Real.sqrt_mul (by have := Real.pi_pos; positivity)]
      congr 1
      rw [show ((l : ℤ) + 0).toNat = l by omega, show ((l : ℤ) - 0).toNat = l by omega, Real.sqrt_mul_self (by positivity)]
    rw [solidS, this, ← hp]; push_cast; ring
  rw [hs] at h
  exact mul_left_cancel₀ (sqrt_norm_ne l) h

/-- C106: turning a body of revolution: all moments follow from those of order zero and the direction of the axis. -/
theorem C106_rotate {L : ℕ} (q : Mom L) (hq : Axial q) (alpha beta gamma : ℝ) :
    ∃ r, rotate_qlm q alpha beta gamma = some r ∧ ∀ (l : ℕ) (m : ℤ), l ≤ L → m.natAbs ≤ l →
      r.get l m = ((Real.sqrt (4 * Real.pi / (2 * l + 1)) : ℝ) : ℂ) * solidS l m (pointing alpha beta) * q.get l 0 := by
  refine ⟨_, rotate_qlm_closed q alpha beta gamma, fun l m hl hm => ?_⟩
  rw [Mom.get_ofFn _ hl (by omega), if_pos hm, Finset.sum_eq_single 0]
  · rw [bigD_col l m hm alpha beta gamma]
    have hpi := Real.pi_pos
    have e : Real.sqrt (4 * Real.pi / (2 * l + 1)) * Real.sqrt ((2 * l + 1) / (4 * Real.pi)) = 1 := by
      rw [← Real.sqrt_mul (by positivity), Real.sqrt_eq_one]; field_simp
    have e' := congrArg (fun x : ℝ => (x : ℂ)) e
    push_cast at e' ⊢
    linear_combination (-(bigD l alpha beta gamma m 0 * q.get l 0)) * e'
  · intro n hn hne
    rw [Finset.mem_Icc] at hn
    rw [hq l n hl (by omega) hne, mul_zero]
  · intro h; simp at h

/-- C106: the angle about its own axis is irrelevant for a body of revolution. -/
theorem C106_own_axis {L : ℕ} (q : Mom L) (hq : Axial q) (alpha beta gamma gamma' : ℝ) :
    rotate_qlm q alpha beta gamma = rotate_qlm q alpha beta gamma' := by
  rw [rotate_qlm_closed, rotate_qlm_closed, Option.some.injEq]
  apply Mom.ext_get
  intro l m hl hm
  rw [Mom.get_ofFn _ hl hm, Mom.get_ofFn _ hl hm]
  split_ifs with h
  · refine Finset.sum_congr rfl fun n hn => ?_
    rw [Finset.mem_Icc] at hn
    by_cases hn0 : n = 0
    · subst hn0; rw [bigD, bigD]; simp
    · rw [hq l n hl (by omega) hn0, mul_zero, mul_zero]
  · rfl

/-- C106: an array is one of a body of revolution exactly when no rotation about z changes it. -/
theorem C106_invariant {L : ℕ} (q : Mom L) : Axial q ↔ ∀ gamma, rotate_qlm q 0 0 gamma = some q := by
  constructor
  · intro hq gamma
    rw [C106_own_axis q hq 0 0 gamma 0, C27_zero]
  · intro h l m hl hm hm0
    obtain ⟨r, h1, h2, -⟩ := C27_about_z q 0 (Real.pi / m)
    rw [h, Option.some.injEq] at h1
    subst h1
    have h3 := h2 l m hl hm
    have hmc : (m : ℂ) ≠ 0 := by exact_mod_cast hm0
    have e : Complex.exp (-Complex.I * m * ((0 : ℝ) + (Real.pi / m : ℝ))) = -1 := by
      rw [show -Complex.I * m * ((0 : ℝ) + (Real.pi / m : ℝ)) = -(Real.pi * Complex.I) by push_cast; field_simp; ring, Complex.exp_neg,
        Complex.exp_pi_mul_I]; norm_num
    rw [e] at h3
    linear_combination h3 / 2

/-- C106: a body of revolution feels no torque about its axis. -/
theorem C106_no_torque {L : ℕ} (q Q : Mom L) (hq : Axial q) (ht : Tri q) (G : ℝ) (l : ℕ) (m : ℤ) (hl : l ≤ L) (hm : m.natAbs ≤ L) :
    (torque_lm q Q G).nlm.get l m = 0 := by
  rw [(C30_entries q Q G l m hl hm).1]
  by_cases hm0 : m = 0
  · subst hm0; simp
  · by_cases hml : m.natAbs ≤ l
    · rw [hq l m hl hml hm0]; simp
    · rw [ht l m hl hm (by omega)]; simp

/-! ## The solids of revolution of `qlm` -/

theorem C106_sphere (L : ℕ) (mass R : ℝ) : Axial (sphere L mass R) := by
  intro l m hl hm hm0
  rw [sphere, Mom.get_ofFn _ hl (by omega), if_neg (fun h => hm0 h.2)]

theorem C106_cylinder (L : ℕ) (mass H R : ℝ) (q : Mom L) (h : cylinder L mass H R = .ok q) : Axial q :=
  fun l m hl hm hm0 => (C37_cylinder L mass H R q h).2 l m hl (by omega) (Or.inl hm0)

theorem sinc_pi (n : ℕ) (hn : n ≠ 0) : sinc (n * Real.pi) = 0 := by
  have hpi := Real.pi_pos
  have hn' : (n : ℝ) ≠ 0 := by exact_mod_cast hn
  rw [sinc, if_neg (by positivity), Real.sin_nat_mul_pi, zero_div]

/-- A whole ring. -/
theorem C106_annulus (L : ℕ) (mass H Ri Ro phic : ℝ) (q : Mom L) (h : annulus L mass H Ri Ro phic Real.pi = .ok q) : Axial q := by
  rw [annulus] at h
  split_ifs at h with h1
  simp only at h
  split_ifs at h with h2
  injection h with h
  subst h
  intro l m hl hm hm0
  refine fill_vanish L _ l m hl (by omega) ?_
  rw [annulusCell, sinc_pi _ (by omega)]
  simp

/-- A whole cone. -/
theorem C106_cone (L : ℕ) (mass P R phic : ℝ) (q : Mom L) (h : cone L mass P R phic Real.pi = .ok q) : Axial q := by
  rw [cone] at h
  split_ifs at h with h1
  injection h with h
  subst h
  intro l m hl hm hm0
  refine fill_vanish L _ l m hl (by omega) ?_
  rw [coneCell, sinc_pi _ (by omega)]
  simp

/-- Moments of a cylinder of any dimensions whose axis points anywhere. -/
theorem C106_pointing_cylinder (L : ℕ) (mass H R alpha beta gamma : ℝ) (hH : 0 < H) (hR : 0 < R) :
    ∃ q r, cylinder L mass H R = .ok q ∧ rotate_qlm q alpha beta gamma = some r ∧ ∀ (l : ℕ) (m : ℤ), l ≤ L → m.natAbs ≤ l →
      r.get l m = ((Real.sqrt (4 * Real.pi / (2 * l + 1)) : ℝ) : ℂ) * solidS l m (pointing alpha beta) *
        uniformMoment mass (prism H (disc R)) l 0 := by
  obtain ⟨r, h1, h2⟩ := C106_rotate _ (C106_cylinder L mass H R _ (C36_cylinder L mass H R hH hR)) alpha beta gamma
  refine ⟨_, r, C36_cylinder L mass H R hH hR, h1, fun l m hl hm => ?_⟩
  rw [h2 l m hl hm, Mom.get_ofFn _ hl (by simp)]

/-- A cylinder lying along x: `rotate_qlm(q, 0, pi/2, gamma)` for any `gamma`; its axis points along `[1, 0, 0]`. -/
example (gamma : ℝ) : ∃ q r, cylinder 4 1 2 1 = .ok q ∧ rotate_qlm q 0 (Real.pi / 2) gamma = some r ∧
    r.get 2 2 = ((Real.sqrt (4 * Real.pi / (2 * (2 : ℕ) + 1)) : ℝ) : ℂ) * solidS 2 2 ![1, 0, 0] * uniformMoment 1 (prism 2 (disc 1)) 2 0 := by
  obtain ⟨q, r, h1, h2, h3⟩ := C106_pointing_cylinder 4 1 2 1 0 (Real.pi / 2) gamma (by norm_num) (by norm_num)
  refine ⟨q, r, h1, h2, ?_⟩
  have e : pointing 0 (Real.pi / 2) = ![1, 0, 0] := by simp [pointing]
  rw [h3 2 2 (by norm_num) (by norm_num), e]

/-- Turning the cylinder by a right angle about y changes its moments: being axial is not preserved. -/
example : ∃ ds, wignerDl 2 0 (Real.pi / 2) 0 = some ds ∧ ds.getD 2 0 0 0 = (-1 / 2 : ℝ) := by
  obtain ⟨ds, h1, h2⟩ := C106_central 2 (by norm_num) 0 (Real.pi / 2) 0
  refine ⟨ds, h1, ?_⟩
  rw [h2 2 (by norm_num), Real.cos_pi_div_two]
  norm_num [bonnetP]

end Newt
