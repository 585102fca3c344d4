import Verif.Proofs.ForceConv
import Verif.Proofs.TransRecurs3

/-!
# Euler angles: independence of the solid harmonics, composition of rotations
-/

namespace Newt

open Complex Spec

/-! ## The solid harmonics of one degree are linearly independent functions -/

theorem Rsol_top_ex (l : ℕ) : Rsol l l ![1, 0, 0] = (-1 / 2) ^ l / (l.factorial : ℂ) := by
  induction l with
  | zero => simpa using Rsol_zero_zero _
  | succ l ih =>
    rw [Rsol_top, ih, Nat.factorial_succ]
    have h1 : ((l : ℂ) + 1) ≠ 0 := by exact_mod_cast (by omega : l + 1 ≠ 0)
    have h3 : (l.factorial : ℂ) ≠ 0 := by exact_mod_cast l.factorial_ne_zero
    simp
    field_simp
    rw [pow_succ]; ring

theorem Rsol_indep : ∀ (l : ℕ) (c : ℤ → ℂ),
    (∀ v, ∑ b ∈ Finset.Icc (-(l : ℤ)) l, c b * Rsol l b v = 0) → ∀ b : ℤ, b.natAbs ≤ l → c b = 0 := by
  intro l
  induction l with
  | zero =>
    intro c h b hb
    have := h 0
    obtain rfl : b = 0 := by omega
    simpa [Rsol_zero_zero] using this
  | succ l ih =>
    intro c h
    have hz : ∀ v, ∑ b ∈ Finset.Icc (-(l : ℤ)) l, c b * Rsol l b v = 0 := by
      intro v
      have hd : HasDerivAt (fun t : ℝ => ∑ b ∈ Finset.Icc (-((l + 1 : ℕ) : ℤ)) ((l + 1 : ℕ) : ℤ),
          c b * Rsol (l + 1) b (v + t • ![0, 0, 1]))
          (∑ b ∈ Finset.Icc (-((l + 1 : ℕ) : ℤ)) ((l + 1 : ℕ) : ℤ), c b * Rsol l b v) 0 := by
        apply HasDerivAt.fun_sum
        intro b _
        refine ((Rsol_dir_zero (l + 1) b v ![0, 0, 1]).const_mul (c b)).congr_deriv ?_
        rw [if_neg (by omega), Finset.sum_eq_single 0]
        · rw [Rsol_ez]; simp
        · intro a _ ha
          rw [Rsol_ez, if_neg ha, zero_mul]
        · intro hn; simp at hn
      have h0 : (fun t : ℝ => ∑ b ∈ Finset.Icc (-((l + 1 : ℕ) : ℤ)) ((l + 1 : ℕ) : ℤ),
          c b * Rsol (l + 1) b (v + t • ![0, 0, 1])) = fun _ => 0 := by
        funext t; exact h _
      rw [h0] at hd
      have := hd.unique (hasDerivAt_const (0 : ℝ) (0 : ℂ))
      rw [← this]
      apply Finset.sum_subset
      · intro b hb; rw [Finset.mem_Icc] at hb ⊢; push_cast; omega
      · intro b hb hb'
        rw [Finset.mem_Icc] at hb hb'
        rw [Rsol_out' l b v (by omega), mul_zero]
    have hin := ih c hz
    have hends : ∀ v, c (l + 1 : ℕ) * Rsol (l + 1) (l + 1 : ℕ) v
        + c (-((l + 1 : ℕ) : ℤ)) * Rsol (l + 1) (-((l + 1 : ℕ) : ℤ)) v = 0 := by
      intro v
      rw [← h v, ← Finset.sum_pair (f := fun b => c b * Rsol (l + 1) b v) (by omega)]
      apply Finset.sum_subset
      · intro b hb
        rw [Finset.mem_insert, Finset.mem_singleton] at hb
        rw [Finset.mem_Icc]; omega
      · intro b hb hb'
        rw [Finset.mem_Icc] at hb
        rw [Finset.mem_insert, Finset.mem_singleton, not_or] at hb'
        rw [hin b (by omega), zero_mul]
    have hK : Rsol (l + 1) (l + 1 : ℕ) ![1, 0, 0] ≠ 0 := by
      rw [Rsol_top_ex]
      have : ((l + 1).factorial : ℂ) ≠ 0 := by exact_mod_cast (l + 1).factorial_ne_zero
      exact div_ne_zero (pow_ne_zero _ (by norm_num)) this
    have hK' : Rsol (l + 1) (-((l + 1 : ℕ) : ℤ)) ![1, 0, 0] = (-1) ^ (l + 1) * Rsol (l + 1) (l + 1 : ℕ) ![1, 0, 0] := by
      rw [Rsol_neg_m, Rsol_top_ex, zpow_natCast,
        show ((-1 / 2 : ℂ) ^ (l + 1) / ((l + 1).factorial : ℂ)) = (((-1 / 2) ^ (l + 1) / ((l + 1).factorial : ℝ) : ℝ) : ℂ) by
          push_cast; rfl, Complex.conj_ofReal]
    have e1 := hends ![1, 0, 0]
    have e2 := hends (rz (Real.pi / (2 * (l + 1))) ![1, 0, 0])
    have hl : ((l : ℂ) + 1) ≠ 0 := by exact_mod_cast (by omega : l + 1 ≠ 0)
    have a1 : -I * ((l + 1 : ℕ) : ℤ) * ((Real.pi / (2 * (l + 1)) : ℝ) : ℂ) = -(Real.pi / 2 * I) := by
      push_cast; field_simp
    have a2 : -I * ((-((l + 1 : ℕ) : ℤ) : ℤ) : ℂ) * ((Real.pi / (2 * (l + 1)) : ℝ) : ℂ) = Real.pi / 2 * I := by
      push_cast; field_simp
    rw [Rsol_rz, Rsol_rz, a1, a2, Complex.exp_neg, Complex.exp_pi_div_two_mul_I, Complex.inv_I, hK'] at e2
    rw [hK'] at e1
    set K := Rsol (l + 1) (l + 1 : ℕ) ![1, 0, 0]
    have f1 : c (l + 1 : ℕ) + c (-((l + 1 : ℕ) : ℤ)) * (-1) ^ (l + 1) = 0 := by
      apply mul_right_cancel₀ hK; linear_combination e1
    have f2 : -c (l + 1 : ℕ) + c (-((l + 1 : ℕ) : ℤ)) * (-1) ^ (l + 1) = 0 := by
      apply mul_right_cancel₀ (mul_ne_zero hK I_ne_zero); linear_combination e2
    have g1 : c (l + 1 : ℕ) = 0 := by linear_combination (f1 - f2) / 2
    have g2 : c (-((l + 1 : ℕ) : ℤ)) = 0 := by
      have : c (-((l + 1 : ℕ) : ℤ)) * (-1) ^ (l + 1) = 0 := by linear_combination (f1 + f2) / 2
      exact (mul_eq_zero.1 this).resolve_right (pow_ne_zero _ (by norm_num))
    intro b hb
    by_cases hbl : b.natAbs ≤ l
    · exact hin b hbl
    · rcases (by omega : b = (l + 1 : ℕ) ∨ b = -((l + 1 : ℕ) : ℤ)) with rfl | rfl
      · exact g1
      · exact g2

theorem solidS_indep (l : ℕ) (c : ℤ → ℂ)
    (h : ∀ v, ∑ b ∈ Finset.Icc (-(l : ℤ)) l, c b * solidS l b v = 0) (b : ℤ) (hb : b.natAbs ≤ l) : c b = 0 := by
  have := Rsol_indep l (fun b => c b * Nlm l b) (fun v => by
    rw [← h v]
    apply Finset.sum_congr rfl; intro b _
    rw [solidS]; ring) b hb
  have hN : (Nlm l b : ℂ) ≠ 0 := by exact_mod_cast Nlm_ne l b
  exact (mul_eq_zero.1 this).resolve_right hN

theorem bigD_unique (l : ℕ) (D : ℤ → ℤ → ℂ) (a : ℤ) (ha : a.natAbs ≤ l) (alpha beta gamma : ℝ)
    (h : ∀ v, solidS l a (eul alpha beta gamma v) = ∑ b ∈ Finset.Icc (-(l : ℤ)) l, D a b * solidS l b v)
    (b : ℤ) (hb : b.natAbs ≤ l) : D a b = bigD l alpha beta gamma a b := by
  rw [← sub_eq_zero]
  refine solidS_indep l (fun b => D a b - bigD l alpha beta gamma a b) (fun v => ?_) b hb
  have := h v
  rw [eul, solidS_rot l a ha, ← sub_eq_zero, ← Finset.sum_sub_distrib] at this
  rw [← neg_eq_zero, ← this, ← Finset.sum_neg_distrib]
  apply Finset.sum_congr rfl; intro b _; ring

/-! ## Rigid motions about the origin -/

/-- A linear map that preserves scalar and vector products. -/
structure Rig (f : V3 → V3) : Prop where
  add : ∀ x y, f (x + y) = f x + f y
  smul : ∀ (c : ℝ) x, f (c • x) = c • f x
  dot : ∀ x y, f x ⬝ᵥ f y = x ⬝ᵥ y
  cross : ∀ x y, crossProduct (f x) (f y) = f (crossProduct x y)

theorem Rig.comp {f g : V3 → V3} (hf : Rig f) (hg : Rig g) : Rig (fun x => f (g x)) where
  add x y := by rw [hg.add, hf.add]
  smul c x := by rw [hg.smul, hf.smul]
  dot x y := by rw [hf.dot, hg.dot]
  cross x y := by rw [hf.cross, hg.cross]

theorem rig_id : Rig (fun x => x) := ⟨fun _ _ => rfl, fun _ _ => rfl, fun _ _ => rfl, fun _ _ => rfl⟩

theorem rig_rotF {v : V3} (hv : v ≠ 0) (t : ℝ) : Rig (rotF t v) where
  add _ _ := Matrix.mulVec_add _ _ _
  smul _ _ := Matrix.mulVec_smul _ _ _
  dot x y := rotR_dot _ (unitOf_unit hv) t x y
  cross x y := rotR_cross _ (unitOf_unit hv) t x y

theorem rig_rz (t : ℝ) : Rig (rz t) := by
  have := rig_rotF (v := ![0, 0, 1]) (fun h => by simpa using congrFun h 2) t
  rwa [show rotF t ![0, 0, 1] = rz t from funext (rotF_z t)] at this

theorem rig_ry (t : ℝ) : Rig (ry t) := by
  have := rig_rotF (v := ![0, 1, 0]) (fun h => by simpa using congrFun h 1) t
  rwa [show rotF t ![0, 1, 0] = ry t from funext (rotF_y t)] at this

theorem rig_eul (alpha beta gamma : ℝ) : Rig (eul alpha beta gamma) :=
  (rig_rz alpha).comp ((rig_ry beta).comp (rig_rz gamma))

theorem Rig.modulus_eq {f : V3 → V3} (hf : Rig f) (x : V3) : modulus (f x) = modulus x := by
  rw [modulus_eq_dot, modulus_eq_dot, hf.dot]

/-- Turning about the image of an axis. -/
theorem Rig.conj {f : V3 → V3} (hf : Rig f) (t : ℝ) (v x : V3) : rotF t (f v) (f x) = f (rotF t v x) := by
  have hu : unitOf (f v) = f (unitOf v) := by
    rw [unitOf_eq, unitOf_eq, hf.smul, hf.modulus_eq]
  rw [rotF, rotF, rotR_mulVec, rotR_mulVec, hu, hf.cross, hf.cross, hf.add, hf.add, hf.smul, hf.smul]

theorem rz_neg_rz (t : ℝ) (v : V3) : rz t (rz (-t) v) = v := by
  have h := Real.sin_sq_add_cos_sq t
  funext i
  fin_cases i <;> simp [rz]
  · linear_combination (v 0) * h
  · linear_combination (v 1) * h

theorem ry_neg_ry (t : ℝ) (v : V3) : ry t (ry (-t) v) = v := by
  have h := Real.sin_sq_add_cos_sq t
  funext i
  fin_cases i <;> simp [ry]
  · linear_combination (v 0) * h
  · linear_combination (v 2) * h

/-- A rigid motion that leaves the z axis in place is a turn about it. -/
theorem Rig.about_z {g : V3 → V3} (hg : Rig g) (hz : g ![0, 0, 1] = ![0, 0, 1]) : ∃ t, g = rz t := by
  have h2 : g ![1, 0, 0] 2 = 0 := by
    have := hg.dot ![1, 0, 0] ![0, 0, 1]
    rw [hz] at this
    simpa [dotProduct, Fin.sum_univ_three] using this
  have h1 : g ![1, 0, 0] 0 ^ 2 + g ![1, 0, 0] 1 ^ 2 = 1 := by
    have := hg.dot ![1, 0, 0] ![1, 0, 0]
    simp [dotProduct, Fin.sum_univ_three, h2] at this
    linarith
  set a := g ![1, 0, 0] 0
  set b := g ![1, 0, 0] 1
  have hn : ‖(⟨a, b⟩ : ℂ)‖ = 1 := by
    rw [Complex.norm_def, Complex.normSq_mk, show a * a + b * b = 1 by linarith, Real.sqrt_one]
  have hne : (⟨a, b⟩ : ℂ) ≠ 0 := fun h => by rw [h] at hn; simp at hn
  have hc : Real.cos (Complex.arg ⟨a, b⟩) = a := by rw [Complex.cos_arg hne, hn, div_one]
  have hs : Real.sin (Complex.arg ⟨a, b⟩) = b := by rw [Complex.sin_arg, hn, div_one]
  have hx : g ![1, 0, 0] = ![a, b, 0] := by
    funext i; fin_cases i <;> simp [a, b, h2]
  have hy : g ![0, 1, 0] = ![-b, a, 0] := by
    have := hg.cross ![0, 0, 1] ![1, 0, 0]
    rw [hz, hx] at this
    have e : crossProduct ![0, 0, 1] ![1, 0, 0] = (![0, 1, 0] : V3) := by
      funext i; fin_cases i <;> simp [crossProduct]
    rw [e] at this
    rw [← this]
    funext i; fin_cases i <;> simp [crossProduct]
  refine ⟨Complex.arg ⟨a, b⟩, funext fun v => ?_⟩
  have hv : v = v 0 • ![1, 0, 0] + v 1 • ![0, 1, 0] + v 2 • ![0, 0, 1] := by
    funext i; fin_cases i <;> simp
  conv_lhs => rw [hv]
  rw [hg.add, hg.add, hg.smul, hg.smul, hg.smul, hx, hy, hz]
  funext i
  fin_cases i <;> simp [rz, hc, hs] <;> ring

/-- Every rigid motion about the origin has Euler angles, with `beta` between `0` and `pi`. -/
theorem Rig.euler {f : V3 → V3} (hf : Rig f) : ∃ alpha beta gamma, 0 ≤ beta ∧ beta ≤ Real.pi ∧ f = eul alpha beta gamma := by
  set d := f ![0, 0, 1]
  have hd1 : modulus d = 1 := by
    rw [show d = f ![0, 0, 1] from rfl, hf.modulus_eq]; simp [Newt.modulus]
  have hd : d ≠ 0 := fun h => by rw [h, (modulus_eq_zero 0).2 rfl] at hd1; exact zero_ne_one hd1
  have hz := eul_to_z d hd
  have hr : rPOf d = 1 := hd1
  rw [hr, eul] at hz
  have hz' : ry (-thetaPOf d) (rz (-phiPOf d) d) = ![0, 0, 1] := by
    have := congrArg (rz (phiPOf d)) hz
    rw [rz_neg_rz] at this
    rw [this]
    funext i; fin_cases i <;> simp [rz]
  obtain ⟨t, ht⟩ := Rig.about_z (((rig_ry (-thetaPOf d)).comp (rig_rz (-phiPOf d))).comp hf) hz'
  refine ⟨phiPOf d, thetaPOf d, t, ?_, ?_, funext fun v => ?_⟩
  · exact Real.arccos_nonneg _
  · exact Real.arccos_le_pi _
  · rw [eul, ← ht, ry_neg_ry, rz_neg_rz]

/-! ## Composition of the matrices and of the moments -/

theorem bigD_of_eul {alpha beta gamma alpha' beta' gamma' : ℝ}
    (h : ∀ v, eul alpha beta gamma v = eul alpha' beta' gamma' v) (l : ℕ) (a b : ℤ) (ha : a.natAbs ≤ l)
    (hb : b.natAbs ≤ l) : bigD l alpha beta gamma a b = bigD l alpha' beta' gamma' a b :=
  bigD_unique l (bigD l alpha beta gamma) a ha alpha' beta' gamma'
    (fun v => by rw [← h, eul, solidS_rot l a ha]) b hb

theorem bigD_comp {a1 b1 c1 a2 b2 c2 a3 b3 c3 : ℝ}
    (h : ∀ v, eul a2 b2 c2 (eul a1 b1 c1 v) = eul a3 b3 c3 v) (l : ℕ) (a b : ℤ) (ha : a.natAbs ≤ l)
    (hb : b.natAbs ≤ l) :
    ∑ n ∈ Finset.Icc (-(l : ℤ)) l, bigD l a2 b2 c2 a n * bigD l a1 b1 c1 n b = bigD l a3 b3 c3 a b := by
  refine bigD_unique l (fun a b => ∑ n ∈ Finset.Icc (-(l : ℤ)) l, bigD l a2 b2 c2 a n * bigD l a1 b1 c1 n b)
    a ha a3 b3 c3 (fun v => ?_) b hb
  have e1 : ∀ n : ℤ, n ∈ Finset.Icc (-(l : ℤ)) l → bigD l a2 b2 c2 a n * solidS l n (eul a1 b1 c1 v) =
      ∑ b ∈ Finset.Icc (-(l : ℤ)) l, bigD l a2 b2 c2 a n * (bigD l a1 b1 c1 n b * solidS l b v) := by
    intro n hn
    rw [Finset.mem_Icc] at hn
    rw [eul, solidS_rot l n (by omega), Finset.mul_sum]
  have e2 : solidS l a (eul a2 b2 c2 (eul a1 b1 c1 v)) =
      ∑ n ∈ Finset.Icc (-(l : ℤ)) l, bigD l a2 b2 c2 a n * solidS l n (eul a1 b1 c1 v) := by
    rw [eul, solidS_rot l a ha]
  rw [← h, e2, Finset.sum_congr rfl e1, Finset.sum_comm]
  apply Finset.sum_congr rfl; intro b _
  rw [Finset.sum_mul]
  apply Finset.sum_congr rfl; intro n _
  ring

theorem rotM_of_eul {L : ℕ} {alpha beta gamma alpha' beta' gamma' : ℝ}
    (h : ∀ v, eul alpha beta gamma v = eul alpha' beta' gamma' v) (q : Mom L) :
    rotM alpha beta gamma q = rotM alpha' beta' gamma' q := by
  apply Mom.ext_get
  intro l m hl hm
  rw [rotM, rotM, Mom.get_ofFn _ hl hm, Mom.get_ofFn _ hl hm]
  split_ifs with hml
  · apply Finset.sum_congr rfl; intro n hn
    rw [Finset.mem_Icc] at hn
    rw [bigD_of_eul h l m n hml (by omega)]
  · rfl

theorem rotM_comp {L : ℕ} {a1 b1 c1 a2 b2 c2 a3 b3 c3 : ℝ}
    (h : ∀ v, eul a2 b2 c2 (eul a1 b1 c1 v) = eul a3 b3 c3 v) (q : Mom L) :
    rotM a2 b2 c2 (rotM a1 b1 c1 q) = rotM a3 b3 c3 q := by
  apply Mom.ext_get
  intro l m hl hm
  by_cases hml : m.natAbs ≤ l
  · rw [rotM_get _ _ _ _ l m hl hml, rotM_get _ _ _ _ l m hl hml]
    have e1 : ∀ n : ℤ, n ∈ Finset.Icc (-(l : ℤ)) l → bigD l a2 b2 c2 m n * (rotM a1 b1 c1 q).get l n =
        ∑ b ∈ Finset.Icc (-(l : ℤ)) l, bigD l a2 b2 c2 m n * (bigD l a1 b1 c1 n b * q.get l b) := by
      intro n hn
      rw [Finset.mem_Icc] at hn
      rw [rotM_get _ _ _ _ l n hl (by omega), Finset.mul_sum]
    rw [Finset.sum_congr rfl e1, Finset.sum_comm]
    apply Finset.sum_congr rfl; intro b hb
    rw [Finset.mem_Icc] at hb
    rw [← bigD_comp h l m b hml (by omega), Finset.sum_mul]
    apply Finset.sum_congr rfl; intro n _
    ring
  · rw [rotM, rotM, rotM, Mom.get_ofFn _ hl hm, Mom.get_ofFn _ hl hm, if_neg hml, if_neg hml,
      Mom.get_ofFn _ hl hm, if_neg hml]

end Newt
