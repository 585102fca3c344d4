import Verif.Proofs.Cad
import Mathlib.RingTheory.RootsOfUnity.Complex

/-!
# The polygon mesh and the two drilled meshes
-/

namespace Newt.Cad

open Newt.Shape Newt.Spec

theorem hull_comb {E : Type*} [AddCommGroup E] [Module ℝ E] {n : ℕ} (v : Fin n → E) (x y z : E) (s t : ℝ)
    (hx : x ∈ hull v) (hy : y ∈ hull v) (hz : z ∈ hull v) (hs : 0 ≤ s) (ht : 0 ≤ t) (hst : s + t ≤ 1) :
    (1 - s - t) • x + s • y + t • z ∈ hull v := by
  obtain ⟨a, a0, a1, rfl⟩ := hx
  obtain ⟨b, b0, b1, rfl⟩ := hy
  obtain ⟨c, c0, c1, rfl⟩ := hz
  refine ⟨fun i => (1 - s - t) * a i + s * b i + t * c i, fun i => ?_, ?_, ?_⟩
  · have := a0 i
    have := b0 i
    have := c0 i
    have : 0 ≤ 1 - s - t := by linarith
    positivity
  · rw [Finset.sum_add_distrib, Finset.sum_add_distrib, ← Finset.mul_sum, ← Finset.mul_sum, ← Finset.mul_sum, a1, b1, c1]
    ring
  · simp only [add_smul, mul_smul, Finset.sum_add_distrib, ← Finset.smul_sum]

theorem sum_vertices (N : ℕ) (hN : 3 ≤ N) :
    ∑ j : Fin N, Real.cos (2 * Real.pi * j / N) = 0 ∧ ∑ j : Fin N, Real.sin (2 * Real.pi * j / N) = 0 := by
  have hN0 : N ≠ 0 := by omega
  have h := (Complex.isPrimitiveRoot_exp N hN0).geom_sum_eq_zero (by omega)
  rw [Finset.sum_range] at h
  have e : ∀ j : Fin N, Complex.exp (2 * Real.pi * Complex.I / N) ^ (j : ℕ)
      = (Real.cos (2 * Real.pi * j / N) : ℂ) + (Real.sin (2 * Real.pi * j / N) : ℂ) * Complex.I := by
    intro j
    rw [← Complex.exp_nat_mul, Complex.ofReal_cos, Complex.ofReal_sin, ← Complex.exp_mul_I]
    congr 1
    push_cast; ring
  simp only [e] at h
  constructor
  · have := congrArg Complex.re h
    rw [Complex.re_sum] at this
    simpa only [Complex.add_re, Complex.mul_re, Complex.ofReal_re, Complex.ofReal_im, Complex.I_re, Complex.I_im, mul_zero,
      zero_mul, sub_zero, add_zero, Complex.zero_re] using this
  · have := congrArg Complex.im h
    rw [Complex.im_sum] at this
    simpa only [Complex.add_im, Complex.mul_im, Complex.ofReal_re, Complex.ofReal_im, Complex.I_re, Complex.I_im, mul_zero,
      zero_mul, mul_one, zero_add, add_zero, Complex.zero_im] using this

theorem angle_mod (N : ℕ) (hN : 0 < N) (n : ℤ) : ∃ i : Fin N, ∃ k : ℤ,
    2 * Real.pi * n / N = 2 * Real.pi * (i : ℕ) / N + k * (2 * Real.pi) := by
  have hN' : (N : ℤ) ≠ 0 := by exact_mod_cast hN.ne'
  have h0 := Int.emod_nonneg n hN'
  have h1 := Int.emod_lt_of_pos n (by exact_mod_cast hN : (0 : ℤ) < N)
  obtain ⟨i, hi⟩ := Int.eq_ofNat_of_zero_le h0
  refine ⟨⟨i, by omega⟩, n / N, ?_⟩
  have hd := Int.mul_ediv_add_emod n N
  rw [hi] at hd
  have hd' : (n : ℝ) = (N : ℝ) * ((n / N : ℤ) : ℝ) + (i : ℝ) := by
    have := congrArg (fun z : ℤ => (z : ℝ)) hd
    push_cast at this ⊢
    rw [← this]
  have hN0 : (N : ℝ) ≠ 0 := by exact_mod_cast hN.ne'
  simp only
  generalize ((n / N : ℤ) : ℝ) = q at hd' ⊢
  rw [hd']
  field_simp
  ring

/-- The polygon with circumscribed radius `rho`, turned by half the angle between vertices, is the
regular polygon with sides of length `2 rho sin(pi/N)`. -/
theorem polygon_hull (N : ℕ) (hN : 3 ≤ N) (rho : ℝ) (hr : 0 < rho) :
    rotated (Real.pi / N) (hull fun j : Fin N => (rho * Real.cos (2 * Real.pi * j / N), rho * Real.sin (2 * Real.pi * j / N)))
      = regularPolygon N (2 * rho * Real.sin (Real.pi / N)) 0 := by
  have hN0 : (0 : ℝ) < N := by exact_mod_cast (by omega : 0 < N)
  have hcos := cosN_pos hN
  have hsin : 0 < Real.sin (Real.pi / N) :=
    Real.sin_pos_of_pos_of_lt_pi (piN_pos hN) (by have := piN_lt hN; have := Real.pi_pos; linarith)
  have hpN := piN_pos hN
  have hpl := piN_lt hN
  have ha : 0 < 2 * rho * Real.sin (Real.pi / N) := by positivity
  have hapo : apo N (2 * rho * Real.sin (Real.pi / N)) = rho * Real.cos (Real.pi / N) := by
    rw [apo, Real.tan_eq_sin_div_cos]; field_simp
  set v : Fin N → ℝ × ℝ := fun j => (rho * Real.cos (2 * Real.pi * j / N), rho * Real.sin (2 * Real.pi * j / N)) with hv
  have hper : ∀ n : ℤ, (rho * Real.cos (2 * Real.pi * n / N), rho * Real.sin (2 * Real.pi * n / N)) ∈ hull v := by
    intro n
    obtain ⟨i, k, e⟩ := angle_mod N (by omega) n
    have := hull_mono v i
    rw [e, Real.cos_add_int_mul_two_pi, Real.sin_add_int_mul_two_pi]
    exact this
  have hzero : (0 : ℝ × ℝ) ∈ hull v := by
    refine ⟨fun _ => 1 / N, fun _ => by positivity, by simp; field_simp, ?_⟩
    obtain ⟨s1, s2⟩ := sum_vertices N hN
    rw [← Finset.smul_sum]
    have : ∑ i, v i = 0 := by
      ext
      · rw [Prod.fst_sum]; simp only [hv]; rw [← Finset.mul_sum, s1]; simp
      · rw [Prod.snd_sum]; simp only [hv]; rw [← Finset.mul_sum, s2]; simp
    rw [this, smul_zero]
  have hcs : ∀ n : ℤ, Real.cos (Real.pi / N - 2 * Real.pi * n / N) ≤ Real.cos (Real.pi / N) := by
    intro n
    obtain ⟨i, k, e⟩ := angle_mod N (by omega) n
    have := cos_le_cos_shift hN (Real.pi / N) (by linarith) le_rfl i i.2
    rw [e, ← sub_sub, Real.cos_sub_int_mul_two_pi]
    exact this
  ext p
  constructor
  · rintro ⟨b, ⟨w, w0, w1, rfl⟩, e1, e2⟩
    intro k hk
    have hap : 2 * rho * Real.sin (Real.pi / N) / (2 * Real.tan (Real.pi / N)) = rho * Real.cos (Real.pi / N) := hapo
    rw [hap, e1, e2, zero_add]
    have key : ∀ j : Fin N, w j * (rho * Real.cos (Real.pi / N - 2 * Real.pi * ((k : ℤ) - (j : ℕ) : ℤ) / N))
        ≤ w j * (rho * Real.cos (Real.pi / N)) := fun j =>
      mul_le_mul_of_nonneg_left (mul_le_mul_of_nonneg_left (hcs _) hr.le) (w0 j)
    have hsum := Finset.sum_le_sum fun j (_ : j ∈ Finset.univ) => key j
    rw [← Finset.sum_mul, w1, one_mul] at hsum
    refine le_trans (le_of_eq ?_) hsum
    rw [Prod.fst_sum, Prod.snd_sum]
    simp only [Prod.smul_fst, Prod.smul_snd, smul_eq_mul, hv]
    rw [Finset.sum_mul, Finset.sum_mul, Finset.sum_mul, Finset.sum_mul, ← Finset.sum_sub_distrib, ← Finset.sum_add_distrib,
      Finset.sum_mul, Finset.sum_mul, ← Finset.sum_add_distrib]
    refine Finset.sum_congr rfl fun j _ => ?_
    rw [show Real.pi / N - 2 * Real.pi * (((k : ℤ) - (j : ℕ) : ℤ) : ℝ) / N
      = 2 * Real.pi * (j : ℕ) / N + Real.pi / N - 2 * Real.pi * k / N by push_cast; ring, Real.cos_sub, Real.cos_add,
      Real.sin_add]
    ring
  · intro hp
    by_cases hp0 : p = 0
    · refine ⟨0, hzero, ?_, ?_⟩ <;> simp [hp0]
    set c : ℂ := ⟨p.1, p.2⟩ with hc
    have hc0 : c ≠ 0 := by
      intro h
      apply hp0
      have h1 := congrArg Complex.re h
      have h2 := congrArg Complex.im h
      ext
      · exact h1
      · exact h2
    obtain ⟨r, psi, hrp, e1, e2⟩ : ∃ r psi : ℝ, 0 < r ∧ p.1 = r * Real.cos psi ∧ p.2 = r * Real.sin psi :=
      ⟨‖c‖, c.arg, norm_pos_iff.2 hc0, (Complex.norm_mul_cos_arg c).symm, (Complex.norm_mul_sin_arg c).symm⟩
    obtain ⟨j, hj⟩ := nearest hN psi
    set phi := psi - 2 * Real.pi * j / N with hphi
    have hmem : (r * Real.cos phi, r * Real.sin phi) ∈ regularPolygon N (2 * rho * Real.sin (Real.pi / N)) 0 := by
      rw [polygon_polar_int hN]
      have hp' : (r * Real.cos psi, r * Real.sin psi) ∈ regularPolygon N (2 * rho * Real.sin (Real.pi / N)) 0 := by
        rw [← e1, ← e2]; exact hp
      rw [polygon_polar_int hN] at hp'
      intro k
      have := hp' (k + j)
      rw [hphi]
      convert this using 3
      push_cast; ring
    have hb := abs_le.1 hj
    obtain ⟨s, t, hs, ht, hst, f1, f2⟩ := (mem_triangle_polar hN ha r phi hrp (by linarith) (by linarith)).2 ⟨hj, hmem⟩
    simp only [hapo] at f1 f2
    refine ⟨_, hull_comb v _ _ _ s t hzero (hper (j - 1)) (hper j) hs ht hst, ?_, ?_⟩
    · have e : psi = phi + 2 * Real.pi * j / N := by rw [hphi]; ring
      have g1 : 2 * Real.pi * ((j - 1 : ℤ) : ℝ) / N = 2 * Real.pi * j / N - Real.pi / N - Real.pi / N := by push_cast; ring
      rw [e1, e, Real.cos_add, mul_sub, ← mul_assoc, ← mul_assoc, f1, f2]
      simp only [smul_zero, Prod.fst_add, Prod.snd_add, Prod.smul_fst, Prod.smul_snd, smul_eq_mul, Prod.fst_zero, Prod.snd_zero,
        g1, Real.cos_sub, Real.sin_sub]
      generalize hC : Real.cos (2 * Real.pi * j / N) = C
      generalize hS : Real.sin (2 * Real.pi * j / N) = S
      have hcs2 := Real.sin_sq_add_cos_sq (Real.pi / N)
      generalize Real.cos (Real.pi / N) = c' at hcs2 ⊢
      generalize Real.sin (Real.pi / N) = s' at hcs2 ⊢
      linear_combination (-(s * rho * (C * c' + S * s'))) * hcs2
    · have e : psi = phi + 2 * Real.pi * j / N := by rw [hphi]; ring
      have g1 : 2 * Real.pi * ((j - 1 : ℤ) : ℝ) / N = 2 * Real.pi * j / N - Real.pi / N - Real.pi / N := by push_cast; ring
      rw [e2, e, Real.sin_add, mul_add, ← mul_assoc, ← mul_assoc, f1, f2]
      simp only [smul_zero, Prod.fst_add, Prod.snd_add, Prod.smul_fst, Prod.smul_snd, smul_eq_mul, Prod.fst_zero, Prod.snd_zero,
        g1, Real.cos_sub, Real.sin_sub]
      generalize hC : Real.cos (2 * Real.pi * j / N) = C
      generalize hS : Real.sin (2 * Real.pi * j / N) = S
      have hcs2 := Real.sin_sq_add_cos_sq (Real.pi / N)
      generalize Real.cos (Real.pi / N) = c' at hcs2 ⊢
      generalize Real.sin (Real.pi / N) = s' at hcs2 ⊢
      linear_combination (-(s * rho * (S * c' - C * s'))) * hcs2

theorem ngon_solid (p : Bool) (H a phic : ℝ) (N : ℕ) (hN : 3 ≤ N) (ha : 0 < a) :
    ngonPrism p H a phic N = ⟨prism H (regularPolygon N (a / 2) 0), p⟩ := by
  have hsin : 0 < Real.sin (Real.pi / N) :=
    Real.sin_pos_of_pos_of_lt_pi (piN_pos hN) (by have := piN_lt hN; have := Real.pi_pos; linarith)
  have hsq : Real.sqrt (2 * (1 - Real.cos (2 * Real.pi / N))) = 2 * Real.sin (Real.pi / N) := by
    rw [show 2 * Real.pi / N = 2 * (Real.pi / N) by ring, Real.cos_two_mul, Real.cos_sq',
      show 2 * (1 - (2 * (1 - Real.sin (Real.pi / N) ^ 2) - 1)) = (2 * Real.sin (Real.pi / N)) ^ 2 by ring,
      Real.sqrt_sq (by positivity)]
  rw [ngonPrism, hsq, rotateMesh_z, extrude_prism, turnZ_prism, polygon,
    show 2 * Real.pi / N / 2 = Real.pi / N by ring, polygon_hull N hN _ (by positivity)]
  congr 3
  field_simp
  try norm_num

end Newt.Cad
