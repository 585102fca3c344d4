import Verif.Proofs.TripleInt
import Verif.Proofs.QlmClosed
import Verif.Proofs.ForceConv
import Verif.Proofs.Q2QBody
import Verif.Proofs.Body

/-! # The integrands and the region integrals of `newt/qlmNum.py`, `newt/bigQlmNum.py` -/

namespace Newt

open MeasureTheory Finset Spec Qlm

/-- A block of cells `m >= 0` equal to a family with the reality symmetry. -/
theorem fill_gen (L : ℕ) (val : ℕ → ℕ → ℂ) (F : ℕ → ℤ → ℂ)
    (hsym : ∀ l m, F l (-m) = (-1) ^ m.natAbs * (starRingEnd ℂ) (F l m))
    (hout : ∀ l (m : ℤ), l < m.natAbs → F l m = 0)
    (h : ∀ l m : ℕ, m ≤ l → l ≤ L → val l m = F l m) : fill L val = Mom.ofFn L F := by
  apply Mom.ext_get
  intro l m hl hm
  rw [Mom.get_ofFn _ hl hm, fill]
  refine get_fillNeg_sym _ F l hl ?_ (fun m _ => hsym l m) m hm
  intro m hm
  by_cases h0 : 0 ≤ m
  · by_cases h1 : m ≤ l
    · rw [if_pos ⟨h0, h1⟩, if_pos h0, h l m.toNat (by omega) hl, Int.toNat_of_nonneg h0]
    · rw [if_neg (by omega), if_pos h0, hout _ _ (by omega)]
  · rw [if_neg (by omega), if_neg h0]

theorem densityInner_neg (d : ℝ) (S : Set V3) (l : ℕ) (m : ℤ) :
    densityInner d S l (-m) = (-1) ^ m.natAbs * (starRingEnd ℂ) (densityInner d S l m) := by
  rw [densityInner, densityInner, map_mul, Complex.conj_ofReal, ← integral_conj]
  simp_rw [solidS_neg]
  rw [integral_const_mul]; ring

theorem densityInner_out (d : ℝ) (S : Set V3) (l : ℕ) (m : ℤ) (h : l < m.natAbs) :
    densityInner d S l m = 0 := by
  simp [densityInner, solidS_out l m _ h]

theorem densityOuter_neg (d : ℝ) (S : Set V3) (l : ℕ) (m : ℤ) :
    densityOuter d S l (-m) = (-1) ^ m.natAbs * (starRingEnd ℂ) (densityOuter d S l m) := by
  rw [densityOuter, densityOuter, map_mul, Complex.conj_ofReal, ← integral_conj]
  simp_rw [solidO_neg]
  rw [integral_const_mul]; ring

theorem densityOuter_out (d : ℝ) (S : Set V3) (l : ℕ) (m : ℤ) (h : l < m.natAbs) :
    densityOuter d S l m = 0 := by
  simp [densityOuter, solidO_out l m _ h]

/-! ## Integrands -/

theorem gfac_eq (l m : ℕ) (h : m ≤ l) : QlmNum.gfac l m = (l + m).factorial * (l - m).factorial := by
  rw [QlmNum.gfac, Real.exp_add, exp_gammaln_nat _ (l + m) (by push_cast; ring),
    exp_gammaln_nat _ (l - m) (by rw [Nat.cast_sub h])]

theorem gamk_eq (l m k : ℕ) (h : m + 2 * k ≤ l) :
    QlmNum.gamk l m k = (m + k).factorial * k.factorial * (l - m - 2 * k).factorial := by
  rw [QlmNum.gamk, Real.exp_add, Real.exp_add, exp_gammaln_nat _ (m + k) (by push_cast; ring),
    exp_gammaln_nat _ k rfl, exp_gammaln_nat _ (l - m - 2 * k) ?_]
  rw [Nat.sub_sub, Nat.cast_sub h]; push_cast; ring

theorem Nlm_gfac (l m : ℕ) (h : m ≤ l) :
    Real.sqrt ((2 * l + 1) * QlmNum.gfac l m / (4 * Real.pi)) = Nlm l m := by
  rw [gfac_eq l m h, Nlm]
  congr 1
  rw [show ((l : ℤ) + (m : ℤ)).toNat = l + m by omega, show ((l : ℤ) - (m : ℤ)).toNat = l - m by omega]
  ring

/-- The azimuth-free part: `(-1)^m N_lm shi`. -/
theorem cylShi_eq (l m : ℕ) (hm : m ≤ l) (z r t : ℝ) :
    ((QlmNum.cylShi l m z r : ℝ) : ℂ) * ((-1) ^ m * ((Nlm l m : ℝ) : ℂ) * Complex.exp (-Complex.I * m * t))
      = solidS l m ![r * Real.cos t, r * Real.sin t, z] := by
  rw [solidS_cyl l m hm, QlmNum.cylShi]
  push_cast
  rw [sum_mul]
  refine sum_congr rfl fun k hk => ?_
  have hk' : m + 2 * k ≤ l := by
    have := mem_range.1 hk; omega
  have e : pmf m k ((![r * Real.cos t, r * Real.sin t, z] : V3) 0, (![r * Real.cos t, r * Real.sin t, z] : V3) 1)
      = (r : ℂ) ^ (m + 2 * k) * Complex.exp (-Complex.I * m * t) := pmf_polar m k r t
  simp only [Matrix.cons_val_zero, Matrix.cons_val_one, Matrix.cons_val] at e ⊢
  rw [e, gamk_eq l m k hk', rc]
  push_cast
  rw [show l - (m + 2 * k) = l - m - 2 * k by omega]
  have h2 : (2 : ℂ) ^ (m + 2 * k) ≠ 0 := pow_ne_zero _ two_ne_zero
  have hf1 : ((k.factorial : ℕ) : ℂ) ≠ 0 := by exact_mod_cast k.factorial_ne_zero
  have hf2 : (((m + k).factorial : ℕ) : ℂ) ≠ 0 := by exact_mod_cast (m + k).factorial_ne_zero
  have hf3 : (((l - m - 2 * k).factorial : ℕ) : ℂ) ≠ 0 := by exact_mod_cast (l - m - 2 * k).factorial_ne_zero
  rw [pow_add (-1 : ℂ) m k]
  field_simp

theorem cylIntegrand_eq (l m : ℕ) (hm : m ≤ l) (z r t : ℝ) :
    QlmNum.cylIntegrand l m z r t = r * (solidS l m ![r * Real.cos t, r * Real.sin t, z]).re := by
  rw [QlmNum.cylIntegrand, Nlm_gfac l m hm, ← mul_assoc, cylShi_eq l m hm, Complex.re_mul_ofReal, mul_comm]

theorem cartIntegrand_eq (l m : ℕ) (hm : m ≤ l) (z y x : ℝ) :
    QlmNum.cartIntegrand l m z y x = (solidS l m ![x, y, z]).re := by
  rw [QlmNum.cartIntegrand, Nlm_gfac l m hm, solidS_cyl l m hm]
  congr 1
  rw [sum_mul]
  refine sum_congr rfl fun k hk => ?_
  have hk' : m + 2 * k ≤ l := by
    have := mem_range.1 hk; omega
  rw [gamk_eq l m k hk', rc, pmf]
  simp only [Matrix.cons_val_zero, Matrix.cons_val_one, Matrix.cons_val]
  push_cast
  rw [show l - (m + 2 * k) = l - m - 2 * k by omega]
  have h2 : (2 : ℂ) ^ (m + 2 * k) ≠ 0 := pow_ne_zero _ two_ne_zero
  have hf1 : ((k.factorial : ℕ) : ℂ) ≠ 0 := by exact_mod_cast k.factorial_ne_zero
  have hf2 : (((m + k).factorial : ℕ) : ℂ) ≠ 0 := by exact_mod_cast (m + k).factorial_ne_zero
  have hf3 : (((l - m - 2 * k).factorial : ℕ) : ℂ) ≠ 0 := by exact_mod_cast (l - m - 2 * k).factorial_ne_zero
  have e : ((x : ℂ) ^ 2 + (y : ℂ) ^ 2) ^ k = ((x : ℂ) + Complex.I * y) ^ k * ((x : ℂ) - Complex.I * y) ^ k := by
    rw [← mul_pow]; congr 1
    linear_combination ((y : ℂ) ^ 2) * Complex.I_sq
  rw [e, pow_add (-1 : ℂ) m k, pow_add ((x : ℂ) - Complex.I * y) m k]
  field_simp

theorem rpow_half (x : ℝ) (hx : 0 ≤ x) (n : ℕ) : x ^ ((n : ℝ) / 2) = Real.sqrt x ^ n := by
  rw [Real.sqrt_eq_rpow, ← Real.rpow_natCast, ← Real.rpow_mul hx]
  congr 1; ring

theorem modulus_cyl (r t z : ℝ) :
    modulus ![r * Real.cos t, r * Real.sin t, z] = Real.sqrt (r ^ 2 + z ^ 2) := by
  rw [modulus]
  congr 1
  simp only [Matrix.cons_val_zero, Matrix.cons_val_one, Matrix.cons_val]
  nlinarith [Real.sin_sq_add_cos_sq t]

theorem bigCylIntegrand_eq (l m : ℕ) (hm : m ≤ l) (z r t : ℝ) :
    BigQlmNum.cylIntegrand l m z r t = r * (solidO l m ![r * Real.cos t, r * Real.sin t, z]).re := by
  rw [BigQlmNum.cylIntegrand, Nlm_gfac l m hm, rpow_half _ (by positivity), solidO, modulus_cyl,
    ← cylShi_eq l m hm]
  simp only [map_mul, map_pow, map_neg, map_one, Complex.conj_ofReal, ← Complex.exp_conj, Complex.conj_I,
    map_natCast]
  rw [show -(-Complex.I) * (m : ℂ) * (t : ℂ) = Complex.I * m * t by ring, ← Complex.re_ofReal_mul]
  congr 1
  push_cast
  ring

/-! ## Reflection in the xz-plane -/

/-- The body is its own mirror image in the xz-plane. -/
def MirrorY (S : Set V3) : Prop := ∀ x y z : ℝ, ![x, -y, z] ∈ S ↔ ![x, y, z] ∈ S

noncomputable def flipY : V3 ≃ᵐ V3 :=
  MeasurableEquiv.piCongrRight fun i : Fin 3 =>
    if i = 1 then MeasurableEquiv.neg ℝ else MeasurableEquiv.refl ℝ

theorem flipY_apply (v : V3) : flipY v = ![v 0, -v 1, v 2] := by
  funext i
  fin_cases i <;> rfl

theorem flipY_mp : MeasurePreserving flipY (volume : Measure V3) volume := by
  have := volume_preserving_pi (ι := Fin 3) (α' := fun _ => ℝ) (β' := fun _ => ℝ)
    (f := fun i => if i = 1 then (fun x : ℝ => -x) else id) (fun i => by
      by_cases h : i = 1
      · simp only [h, if_true]; exact Measure.measurePreserving_neg volume
      · simp only [h, if_false]; exact MeasurePreserving.id _)
  have e : (flipY : V3 → V3) = fun a i => (if i = 1 then (fun x : ℝ => -x) else id) (a i) := by
    funext v i
    rw [flipY_apply]
    fin_cases i <;> rfl
  rw [e]; exact this

theorem vec_eta (v : V3) : ![v 0, v 1, v 2] = v := by
  funext i; fin_cases i <;> rfl

theorem integral_mirror (S : Set V3) (hS : MirrorY S) (F : V3 → ℂ)
    (hF : ∀ v, F ![v 0, -v 1, v 2] = (starRingEnd ℂ) (F v)) :
    (∫ v in S, F v).im = 0 := by
  have h1 := flipY_mp.setIntegral_preimage_emb flipY.measurableEmbedding F S
  have h2 : flipY ⁻¹' S = S := by
    ext v
    rw [Set.mem_preimage, flipY_apply, hS, vec_eta]
  rw [h2] at h1
  simp_rw [flipY_apply, hF] at h1
  rw [integral_conj] at h1
  exact Complex.conj_eq_iff_im.1 h1

theorem solidS_mirror (l m : ℕ) (hm : m ≤ l) (v : V3) :
    solidS l m ![v 0, -v 1, v 2] = (starRingEnd ℂ) (solidS l m v) := by
  rw [solidS_cyl l m hm, solidS_cyl l m hm, map_sum]
  refine sum_congr rfl fun k _ => ?_
  simp only [map_mul, Complex.conj_ofReal, map_pow, pmf, map_sub, map_add, Complex.conj_I,
    Matrix.cons_val_zero, Matrix.cons_val_one, Matrix.cons_val]
  push_cast
  ring

theorem modulus_mirror (v : V3) : modulus ![v 0, -v 1, v 2] = modulus v := by
  simp [modulus]

theorem solidO_mirror (l m : ℕ) (hm : m ≤ l) (v : V3) :
    solidO l m ![v 0, -v 1, v 2] = (starRingEnd ℂ) (solidO l m v) := by
  rw [solidO, solidO, solidS_mirror l m hm, modulus_mirror, map_div₀, Complex.conj_ofReal]

theorem integral_eq_re (S : Set V3) (hS : MirrorY S) (F : V3 → ℂ) (hi : IntegrableOn F S)
    (hF : ∀ v, F ![v 0, -v 1, v 2] = (starRingEnd ℂ) (F v)) :
    ∫ v in S, F v = ((∫ v in S, (F v).re : ℝ) : ℂ) := by
  have h1 : (∫ v in S, F v).re = ∫ v in S, (F v).re := by
    have := Complex.reCLM.integral_comp_comm (μ := volume.restrict S) hi
    simpa using this.symm
  rw [← h1]
  apply Complex.ext
  · simp
  · rw [integral_mirror S hS F hF]; simp

/-! ## Bodies described in cylindrical coordinates -/

/-- `S` is described in cylindrical coordinates by the given limits and fits in a box. -/
structure CylBody (S : Set V3) (phih : ℝ) (a b : ℝ → ℝ) (q s : ℝ → ℝ → ℝ) : Prop where
  meas : MeasurableSet S
  mirror : MirrorY S
  bounded : ∃ Rm Zm : ℝ, 0 ≤ Rm ∧ 0 ≤ Zm ∧ S ⊆ {v | v 0 ^ 2 + v 1 ^ 2 ≤ Rm ^ 2 ∧ |v 2| ≤ Zm}
  h0 : 0 ≤ phih
  hpi : phih ≤ Real.pi
  ha : ∀ t, -phih ≤ t → t ≤ phih → 0 ≤ a t
  hab : ∀ t, -phih ≤ t → t ≤ phih → a t ≤ b t
  hqs : ∀ t r, -phih ≤ t → t ≤ phih → a t ≤ r → r ≤ b t → q t r ≤ s t r
  hiff : ∀ t r z, 0 < r → -Real.pi < t → t < Real.pi → (![r * Real.cos t, r * Real.sin t, z] ∈ S ↔
      (-phih ≤ t ∧ t ≤ phih) ∧ (a t ≤ r ∧ r ≤ b t) ∧ (q t r ≤ z ∧ z ≤ s t r))

theorem modulus_box (v : V3) (Rm Zm : ℝ) (hR : 0 ≤ Rm) (hZ : 0 ≤ Zm) (h1 : v 0 ^ 2 + v 1 ^ 2 ≤ Rm ^ 2) (h2 : |v 2| ≤ Zm) :
    modulus v ≤ Rm + Zm := by
  rw [modulus]
  apply Real.sqrt_le_iff.2
  refine ⟨by linarith, ?_⟩
  have : v 2 ^ 2 ≤ Zm ^ 2 := sq_le_sq' (abs_le.1 h2).1 (abs_le.1 h2).2
  nlinarith

theorem CylBody.volume_lt_top {S : Set V3} {phih : ℝ} {a b : ℝ → ℝ} {q s : ℝ → ℝ → ℝ}
    (h : CylBody S phih a b q s) : volume S < ⊤ := by
  obtain ⟨Rm, Zm, hR, hZ, hb⟩ := h.bounded
  exact lt_of_le_of_lt (measure_mono hb) (box_volume_lt_top Rm Zm hR)

theorem CylBody.inner {S : Set V3} {phih : ℝ} {a b : ℝ → ℝ} {q s : ℝ → ℝ → ℝ}
    (h : CylBody S phih a b q s) (l m : ℕ) (hm : m ≤ l) :
    ∫ v in S, solidS l m v = ((tplquad (QlmNum.cylIntegrand l m) (-phih) phih a b q s : ℝ) : ℂ) := by
  obtain ⟨Rm, Zm, hR, hZ, hb⟩ := h.bounded
  have hbd : ∀ v ∈ S, ‖solidS l m v‖ ≤ (2 * l + 1) * (Rm + Zm) ^ l := by
    intro v hv
    refine (norm_solidS_le l m v).trans ?_
    have h1 := modulus_box v Rm Zm hR hZ (hb hv).1 (hb hv).2
    have h2 : 0 ≤ modulus v := Real.sqrt_nonneg _
    gcongr
  have hi : IntegrableOn (solidS l m) S :=
    Measure.integrableOn_of_bounded (M := (2 * l + 1) * (Rm + Zm) ^ l) h.volume_lt_top.ne
      (continuous_solidS l m).aestronglyMeasurable
      ((ae_restrict_iff' h.meas).2 (Filter.Eventually.of_forall hbd))
  rw [integral_eq_re S h.mirror _ hi (solidS_mirror l m hm)]
  congr 1
  rw [integral_cylindrical S h.meas (fun v => (solidS l m v).re)
    (Complex.continuous_re.comp (continuous_solidS l m)).measurable Rm Zm ((2 * l + 1) * (Rm + Zm) ^ l)
    (by positivity) (fun v hv => (Complex.abs_re_le_norm _).trans (hbd v hv)) hb hR hZ phih h.h0 h.hpi a b q s
    h.ha h.hab h.hqs h.hiff]
  simp_rw [funext fun z => funext fun r => funext fun t => cylIntegrand_eq l m hm z r t]

theorem CylBody.outer {S : Set V3} {phih : ℝ} {a b : ℝ → ℝ} {q s : ℝ → ℝ → ℝ}
    (h : CylBody S phih a b q s) (D : ℝ) (hD : 0 < D) (hoff : ∀ v ∈ S, D ≤ modulus v) (l m : ℕ) (hm : m ≤ l) :
    ∫ v in S, solidO l m v = ((tplquad (BigQlmNum.cylIntegrand l m) (-phih) phih a b q s : ℝ) : ℂ) := by
  obtain ⟨Rm, Zm, hR, hZ, hb⟩ := h.bounded
  have hbd : ∀ v ∈ S, ‖solidO l m v‖ ≤ (2 * l + 1) / D ^ (l + 1) := by
    intro v hv
    have h1 := hoff v hv
    have h0 : v ≠ 0 := by
      intro h0
      rw [h0, (modulus_eq_zero 0).2 rfl] at h1
      linarith
    refine (norm_solidO_le l m v h0).trans ?_
    gcongr
  have hi : IntegrableOn (solidO l m) S :=
    Measure.integrableOn_of_bounded (M := (2 * l + 1) / D ^ (l + 1)) h.volume_lt_top.ne
      (measurable_solidO l m).aestronglyMeasurable
      ((ae_restrict_iff' h.meas).2 (Filter.Eventually.of_forall hbd))
  rw [integral_eq_re S h.mirror _ hi (solidO_mirror l m hm)]
  congr 1
  rw [integral_cylindrical S h.meas (fun v => (solidO l m v).re)
    (Complex.measurable_re.comp (measurable_solidO l m)) Rm Zm ((2 * l + 1) / D ^ (l + 1))
    (by positivity) (fun v hv => (Complex.abs_re_le_norm _).trans (hbd v hv)) hb hR hZ phih h.h0 h.hpi a b q s
    h.ha h.hab h.hqs h.hiff]
  simp_rw [funext fun z => funext fun r => funext fun t => bigCylIntegrand_eq l m hm z r t]

/-- The arrays. -/
theorem CylBody.inner_finish {S : Set V3} {phih : ℝ} {a b : ℝ → ℝ} {q s : ℝ → ℝ → ℝ}
    (h : CylBody S phih a b q s) (L : ℕ) (dens : ℝ) :
    QlmNum.finish L dens (fun l m => tplquad (QlmNum.cylIntegrand l m) (-phih) phih a b q s)
      = Mom.ofFn L (densityInner dens S) := by
  refine fill_gen L _ _ (densityInner_neg dens S) (densityInner_out dens S) ?_
  intro l m hm _
  rw [densityInner, h.inner l m hm, mul_comm]

theorem CylBody.outer_finish {S : Set V3} {phih : ℝ} {a b : ℝ → ℝ} {q s : ℝ → ℝ → ℝ}
    (h : CylBody S phih a b q s) (D : ℝ) (hD : 0 < D) (hoff : ∀ v ∈ S, D ≤ modulus v) (L : ℕ) (dens : ℝ) :
    QlmNum.finish L dens (fun l m => tplquad (BigQlmNum.cylIntegrand l m) (-phih) phih a b q s)
      = Mom.ofFn L (densityOuter dens S) := by
  refine fill_gen L _ _ (densityOuter_neg dens S) (densityOuter_out dens S) ?_
  intro l m hm _
  rw [densityOuter, h.outer D hD hoff l m hm, mul_comm]

/-- Cartesian bodies. -/
theorem cart_finish (S : Set V3) (hS : MeasurableSet S) (hmir : MirrorY S) (Rm Zm : ℝ) (hR : 0 ≤ Rm) (hZ : 0 ≤ Zm)
    (hb : S ⊆ {v | v 0 ^ 2 + v 1 ^ 2 ≤ Rm ^ 2 ∧ |v 2| ≤ Zm})
    (a b : ℝ) (hab : a ≤ b) (c d : ℝ → ℝ) (q s : ℝ → ℝ → ℝ)
    (hcd : ∀ x, a ≤ x → x ≤ b → c x ≤ d x)
    (hqs : ∀ x y, a ≤ x → x ≤ b → c x ≤ y → y ≤ d x → q x y ≤ s x y)
    (hiff : ∀ x y z, ![x, y, z] ∈ S ↔ (a ≤ x ∧ x ≤ b) ∧ (c x ≤ y ∧ y ≤ d x) ∧ (q x y ≤ z ∧ z ≤ s x y))
    (L : ℕ) (dens : ℝ) :
    QlmNum.finish L dens (fun l m => tplquad (QlmNum.cartIntegrand l m) a b c d q s)
      = Mom.ofFn L (densityInner dens S) := by
  refine fill_gen L _ _ (densityInner_neg dens S) (densityInner_out dens S) ?_
  intro l m hm _
  have hbd : ∀ v ∈ S, ‖solidS l m v‖ ≤ (2 * l + 1) * (Rm + Zm) ^ l := by
    intro v hv
    refine (norm_solidS_le l m v).trans ?_
    have h1 := modulus_box v Rm Zm hR hZ (hb hv).1 (hb hv).2
    have h2 : 0 ≤ modulus v := Real.sqrt_nonneg _
    gcongr
  have hv : volume S < ⊤ := lt_of_le_of_lt (measure_mono hb) (box_volume_lt_top Rm Zm hR)
  have hi : IntegrableOn (solidS l m) S :=
    Measure.integrableOn_of_bounded (M := (2 * l + 1) * (Rm + Zm) ^ l) hv.ne
      (continuous_solidS l m).aestronglyMeasurable
      ((ae_restrict_iff' hS).2 (Filter.Eventually.of_forall hbd))
  rw [densityInner, integral_eq_re S hmir _ hi (solidS_mirror l m hm),
    integral_cart S hS (fun v => (solidS l m v).re) hi.re a b hab c d q s hcd hqs hiff]
  simp_rw [funext fun z => funext fun y => funext fun x => cartIntegrand_eq l m hm z y x]
  rw [mul_comm]

end Newt
