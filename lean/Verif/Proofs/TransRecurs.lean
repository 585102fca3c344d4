import Verif.Proofs.TranslationsAlg
import Verif.Proofs.WignerRot
import Verif.Props.Rotations
import Verif.Model.TranslationRecurs

/-! # Coaxial translations conjugated by rotations are the general translations -/

namespace Newt

open Polynomial Spec

/-- The rotation matrix on un-normalised solid harmonics. -/
noncomputable def rM (l : ℕ) (alpha beta gamma : ℝ) (a b : ℤ) : ℂ :=
  Complex.exp (-Complex.I * a * alpha) *
    zc (wp ((Real.cos (beta / 2) : ℝ) : ℂ) ((Real.sin (beta / 2) : ℝ) : ℂ) (2 * l) (l + b).toNat) (l + a) *
    Complex.exp (-Complex.I * b * gamma)

theorem bigD_rM (l : ℕ) (alpha beta gamma : ℝ) (a b : ℤ) (ha : a.natAbs ≤ l) :
    bigD l alpha beta gamma a b = (Nlm l a : ℂ) / (Nlm l b : ℂ) * rM l alpha beta gamma a b := by
  have h4 : Real.sqrt ((2 * l + 1) / (4 * Real.pi)) ≠ 0 := by
    apply ne_of_gt; apply Real.sqrt_pos.2; have := Real.pi_pos; positivity
  have h5 := wt_ne l b
  rw [bigD, rM, smalld, dcs, zc, if_pos (by omega), Nlm_wt, Nlm_wt]
  have := wM_map Complex.ofRealHom (Real.cos (beta / 2)) (Real.sin (beta / 2)) (2 * l)
    ((l : ℤ) + a).toNat ((l : ℤ) + b).toNat
  simp only [Complex.ofRealHom_eq_coe, wM] at this
  rw [← this, ← wM]
  have h4' : ((Real.sqrt ((2 * l + 1) / (4 * Real.pi)) : ℝ) : ℂ) ≠ 0 := by exact_mod_cast h4
  have h5' : ((wt l b : ℝ) : ℂ) ≠ 0 := by exact_mod_cast h5
  push_cast
  field_simp

theorem rM_out (l : ℕ) (alpha beta gamma : ℝ) (a b : ℤ) (ha : l < a.natAbs) (hb : b.natAbs ≤ l) :
    rM l alpha beta gamma a b = 0 := by
  rw [rM]
  by_cases h : (l : ℤ) + a < 0
  · rw [zc_neg _ h]; simp
  · rw [zc_big _ (wp_deg _ _ (by omega : ((l : ℤ) + b).toNat ≤ 2 * l)) (by push_cast; omega)]; simp

/-- The matrices are multiplicative: products of polynomials go to products. -/
theorem rM_conv (p k : ℕ) (alpha beta gamma : ℝ) (a b m : ℤ) (ha : a.natAbs ≤ p) (hb : b.natAbs ≤ k) :
    ∑ n ∈ Finset.Icc (-(k : ℤ)) k, rM p alpha beta gamma (m - n) a * rM k alpha beta gamma n b =
      rM (p + k) alpha beta gamma m (a + b) := by
  set c : ℂ := ((Real.cos (beta / 2) : ℝ) : ℂ)
  set s : ℂ := ((Real.sin (beta / 2) : ℝ) : ℂ)
  have hw : wp c s (2 * (p + k)) (((p + k : ℕ) : ℤ) + (a + b)).toNat =
      wp c s (2 * k) ((k : ℤ) + b).toNat * wp c s (2 * p) ((p : ℤ) + a).toNat := by
    rw [wp, wp, wp, show (((p + k : ℕ) : ℤ) + (a + b)).toNat = ((k : ℤ) + b).toNat + ((p : ℤ) + a).toNat by
      omega, show 2 * (p + k) - (((k : ℤ) + b).toNat + ((p : ℤ) + a).toNat) =
        (2 * k - ((k : ℤ) + b).toNat) + (2 * p - ((p : ℤ) + a).toNat) by omega, pow_add, pow_add]
    ring
  rw [rM, hw, zc_mul _ _ (wp_deg c s (by omega : ((k : ℤ) + b).toNat ≤ 2 * k)), Finset.mul_sum,
    Finset.sum_mul]
  refine Finset.sum_bij' (fun n _ => (k : ℤ) + n) (fun i _ => i - k) ?_ ?_ ?_ ?_ ?_
  · intro n hn; rw [Finset.mem_Icc] at *; push_cast; omega
  · intro n hn; rw [Finset.mem_Icc] at *; push_cast at hn; omega
  · intro n _; ring
  · intro n _; ring
  · intro n _
    rw [rM, rM, show ((p + k : ℕ) : ℤ) + m - (k + n) = p + (m - n) by push_cast; ring,
      show -Complex.I * (m : ℂ) * (alpha : ℂ) = -Complex.I * ((m - n : ℤ) : ℂ) * alpha + -Complex.I * n * alpha by
        push_cast; ring,
      show -Complex.I * ((a + b : ℤ) : ℂ) * (gamma : ℂ) = -Complex.I * a * gamma + -Complex.I * b * gamma by
        push_cast; ring, Complex.exp_add, Complex.exp_add]
    ring

/-- The rotation of points that belongs to the Euler angles. -/
noncomputable def eul (alpha beta gamma : ℝ) (v : V3) : V3 := rz alpha (ry beta (rz gamma v))

theorem Rsol_rot (l : ℕ) (a : ℤ) (alpha beta gamma : ℝ) (v : V3) :
    Rsol l a (eul alpha beta gamma v) =
      ∑ b ∈ Finset.Icc (-(l : ℤ)) l, rM l alpha beta gamma a b * Rsol l b v := by
  by_cases ha : a.natAbs ≤ l
  · have h := solidS_rot l a ha alpha beta gamma v
    rw [solidS] at h
    have hN := Nlm_ne l a
    apply mul_left_cancel₀ hN
    rw [eul, h, Finset.mul_sum]
    apply Finset.sum_congr rfl
    intro b hb
    rw [bigD_rM _ _ _ _ _ _ ha, solidS]
    have := Nlm_ne l b
    field_simp
  · rw [Rsol_out' _ _ _ (by omega)]
    symm
    apply Finset.sum_eq_zero
    intro b hb
    rw [Finset.mem_Icc] at hb
    rw [rM_out _ _ _ _ _ _ (by omega) (by omega), zero_mul]

theorem sum_shift (p k : ℕ) (b : ℤ) (hb : b.natAbs ≤ k) (f : ℤ → ℂ)
    (hf : ∀ a : ℤ, p < (a - b).natAbs → f a = 0) :
    ∑ a ∈ Finset.Icc (-((p + k : ℕ) : ℤ)) ((p + k : ℕ) : ℤ), f a =
      ∑ a ∈ Finset.Icc (-(p : ℤ)) p, f (a + b) := by
  symm
  refine Finset.sum_of_injOn (fun a => a + b) ?_ ?_ ?_ ?_
  · intro x _ y _ h; simpa using h
  · intro a ha
    rw [Finset.mem_coe, Finset.mem_Icc] at *
    push_cast; omega
  · intro a ha hn
    apply hf
    by_contra h
    apply hn
    refine ⟨a - b, ?_, by ring⟩
    rw [Finset.mem_coe, Finset.mem_Icc]; omega
  · intro a _; rfl

theorem cov_inner (p k : ℕ) (alpha beta gamma : ℝ) (m b : ℤ) (hb : b.natAbs ≤ k) (d : V3) :
    ∑ a ∈ Finset.Icc (-((p + k : ℕ) : ℤ)) ((p + k : ℕ) : ℤ),
        rM (p + k) alpha beta gamma m a * Rsol p (a - b) d =
      ∑ n ∈ Finset.Icc (-(k : ℤ)) k, Rsol p (m - n) (eul alpha beta gamma d) * rM k alpha beta gamma n b := by
  rw [sum_shift p k b hb _ (fun a ha => by rw [Rsol_out' _ _ _ ha, mul_zero])]
  have h : ∀ n, Rsol p (m - n) (eul alpha beta gamma d) * rM k alpha beta gamma n b =
      ∑ a ∈ Finset.Icc (-(p : ℤ)) p, rM p alpha beta gamma (m - n) a * rM k alpha beta gamma n b * Rsol p a d := by
    intro n
    rw [Rsol_rot, Finset.sum_mul]
    apply Finset.sum_congr rfl
    intros; ring
  simp only [h]
  rw [Finset.sum_comm]
  apply Finset.sum_congr rfl
  intro a ha
  rw [Finset.mem_Icc] at ha
  rw [← Finset.sum_mul, rM_conv p k alpha beta gamma a b m (by omega) hb, add_sub_cancel_right]

/-- Rotated inner translation. -/
theorem rot_trInner {L : ℕ} (q : Mom L) (d : V3) (alpha beta gamma : ℝ) (l : ℕ) (m : ℤ)
    (hm : m.natAbs ≤ l) :
    ∑ a ∈ Finset.Icc (-(l : ℤ)) l, bigD l alpha beta gamma m a * trInner q d l a =
      (Nlm l m : ℂ) * ∑ k ∈ Finset.range (l + 1), ∑ n ∈ Finset.Icc (-(k : ℤ)) k,
        Rsol (l - k) (m - n) (eul alpha beta gamma d) *
          ((∑ b ∈ Finset.Icc (-(k : ℤ)) k, bigD k alpha beta gamma n b * q.get k b) / (Nlm k n : ℂ)) := by
  have h1 : ∀ a ∈ Finset.Icc (-(l : ℤ)) l, bigD l alpha beta gamma m a * trInner q d l a =
      (Nlm l m : ℂ) * ∑ k ∈ Finset.range (l + 1), ∑ b ∈ Finset.Icc (-(k : ℤ)) k,
        rM l alpha beta gamma m a * Rsol (l - k) (a - b) d * (q.get k b / (Nlm k b : ℂ)) := by
    intro a _
    rw [bigD_rM _ _ _ _ _ _ hm, trInner, Finset.mul_sum, Finset.mul_sum, Finset.mul_sum]
    apply Finset.sum_congr rfl
    intro k _
    rw [Finset.mul_sum, Finset.mul_sum, Finset.mul_sum]
    apply Finset.sum_congr rfl
    intro b _
    have := Nlm_ne l a
    field_simp
  rw [Finset.sum_congr rfl h1, ← Finset.mul_sum, Finset.sum_comm]
  congr 1
  apply Finset.sum_congr rfl
  intro k hk
  rw [Finset.mem_range] at hk
  rw [Finset.sum_comm]
  have h2 : ∀ b ∈ Finset.Icc (-(k : ℤ)) k,
      ∑ a ∈ Finset.Icc (-(l : ℤ)) l, rM l alpha beta gamma m a * Rsol (l - k) (a - b) d * (q.get k b / (Nlm k b : ℂ)) =
      ∑ n ∈ Finset.Icc (-(k : ℤ)) k, Rsol (l - k) (m - n) (eul alpha beta gamma d) *
        rM k alpha beta gamma n b * (q.get k b / (Nlm k b : ℂ)) := by
    intro b hb
    rw [Finset.mem_Icc] at hb
    rw [← Finset.sum_mul, ← Finset.sum_mul]
    have := cov_inner (l - k) k alpha beta gamma m b (by omega) d
    rw [show l - k + k = l by omega] at this
    rw [this]
  rw [Finset.sum_congr rfl h2, Finset.sum_comm]
  apply Finset.sum_congr rfl
  intro n hn
  rw [Finset.mem_Icc] at hn
  rw [Finset.sum_div, Finset.mul_sum]
  apply Finset.sum_congr rfl
  intro b _
  rw [bigD_rM _ _ _ _ _ _ (by omega : n.natAbs ≤ k)]
  have := Nlm_ne k n
  have := Nlm_ne k b
  field_simp

end Newt
