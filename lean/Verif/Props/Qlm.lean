import Verif.Proofs.QlmShapes2
import Verif.Proofs.QlmCyl
import Verif.Proofs.QlmBall
import Verif.Proofs.TranslationsAlg

/-!
# C35, C36, C37: the solids of `newt/qlm.py`

`uniformMoment mass S l m` (Spec/Solids.lean) is `mass/vol(S)` times the Lebesgue integral over the
set `S` of `r^l conj(Y_lm)`; the sets `prism`, `coneOver`, `sector`, `triangle`, ... are the solids
the docstrings describe.
-/

namespace Newt

open Finset Spec Qlm

/-! ## C36: every array is the array of volume integrals over the documented solid -/

theorem C36_sphere (L : ℕ) (mass R : ℝ) (hR : 0 < R) :
    sphere L mass R = Mom.ofFn L (uniformMoment mass (ball R)) := sphere_eq L mass R hR

theorem C36_cylinder (L : ℕ) (mass H R : ℝ) (hH : 0 < H) (hR : 0 < R) :
    cylinder L mass H R = .ok (Mom.ofFn L (uniformMoment mass (prism H (disc R)))) :=
  cylinder_eq L mass H R hH hR

theorem C36_annulus (L : ℕ) (mass H Ri Ro phic phih : ℝ) (hH : 0 < H) (hRi : 0 ≤ Ri) (hR : Ri < Ro) (h0 : 0 < phih) (hpi : phih ≤ Real.pi) :
    annulus L mass H Ri Ro phic phih = .ok (Mom.ofFn L (uniformMoment mass (prism H (sector Ri Ro phic phih)))) := by
  rw [annulus, if_neg (by push Not; exact ⟨hH, hR.le, h0, hpi, hRi⟩)]
  have hne : Ro ^ 2 - Ri ^ 2 ≠ 0 := by nlinarith
  simp only [if_neg hne]
  rw [fill_eq L _ mass _ fun l m hm _ => annulus_cell mass H Ri Ro phic phih hH hRi hR h0 hpi l m hm]

theorem C36_cone (L : ℕ) (mass P R phic phih : ℝ) (hP : 0 < P) (hR : 0 < R) (h0 : 0 < phih) (hpi : phih ≤ Real.pi) :
    cone L mass P R phic phih = .ok (Mom.ofFn L (uniformMoment mass (coneOver P (sector 0 R phic phih)))) := by
  rw [cone, if_neg (by push Not; exact ⟨hP, hR, h0, hpi⟩)]
  rw [fill_eq L _ mass _ fun l m hm _ => cone_cell mass P R phic phih hP hR h0 hpi l m hm]

theorem C36_tri_iso_prism (L : ℕ) (mass H a d phic : ℝ) (hH : 0 < H) (ha : 0 < a) (hd : d ≠ 0) :
    triIsoPrism L mass H a d phic = .ok (Mom.ofFn L (uniformMoment mass (prism H (rotated phic (triangle (d, -(a / 2)) (d, a / 2)))))) := by
  rw [triIsoPrism, if_neg (by push Not; exact ⟨hH, hd, ha⟩)]
  rw [fill_eq L _ mass _ fun l m hm _ => iso_cell mass H a d phic hH ha hd l m hm]

theorem C36_tri_iso_prism2 (L : ℕ) (mass H R phic phih : ℝ) (hH : 0 < H) (hR : 0 < R) (h0 : 0 < phih) (h2 : phih < Real.pi / 2) :
    triIsoPrism2 L mass H R phic phih = .ok (Mom.ofFn L (uniformMoment mass (prism H (triangle (R * Real.cos (phic - phih), R * Real.sin (phic - phih))
          (R * Real.cos (phic + phih), R * Real.sin (phic + phih)))))) := by
  rw [triIsoPrism2, if_neg (by push Not; exact ⟨hH, hR, h0, h2.le⟩)]
  rw [fill_eq L _ mass _ fun l m hm _ => iso2_cell mass H R phic phih hH hR h0 h2 l m hm]

theorem C36_tri_prism (L : ℕ) (mass H d y1 y2 : ℝ) (hH : 0 < H) (hd : d ≠ 0) (hy : y1 ≠ y2) :
    triPrism L mass H d y1 y2 = .ok (Mom.ofFn L (uniformMoment mass (prism H (triangle (d, y1) (d, y2))))) := by
  rw [triPrism, if_neg (by push Not; exact ⟨hH, hd, hy⟩)]
  rw [fill_eq L _ mass _ fun l m hm _ => tri_cell mass H d y1 y2 hH hd hy l m hm]

theorem C36_rect_prism (L : ℕ) (mass H a b phic : ℝ) (hH : 0 < H) (ha : 0 < a) (hb : 0 < b) :
    rectPrism L mass H a b phic = .ok (Mom.ofFn L (uniformMoment mass (prism H (rotated phic (rectangle a b))))) := by
  rw [rectPrism, if_neg (by push Not; exact ⟨hH, hb, ha⟩)]
  rw [fill_eq L _ mass _ fun l m hm _ => rect_cell mass H a b phic hH ha hb l m hm]

theorem C36_ngon_prism (L : ℕ) (mass H a phic : ℝ) (N : ℕ) (hN : 3 ≤ N) (hH : 0 < H) (ha : 0 < a) :
    ngonPrism L mass H a phic N = .ok (Mom.ofFn L (uniformMoment mass (prism H (regularPolygon N a phic)))) := by
  rw [ngonPrism, if_neg (by push Not; exact ⟨hH, ha, by omega⟩)]
  rw [fill_eq L _ mass _ fun l m hm _ => ngon_cell mass H a phic N hN hH ha l m hm]

theorem C36_tetrahedron (L : ℕ) (mass x y z : ℝ) (hx : 0 < x) (hy : 0 < y) (hz : 0 < z) :
    tetrahedron L mass x y z = .ok (Mom.ofFn L (uniformMoment mass (coneOver z (triangle (x, 0) (0, y))))) := by
  rw [tetrahedron, if_neg (by push Not; exact ⟨hx, hy, hz⟩)]
  rw [fill_eq L _ mass _ fun l m hm _ => tet_cell mass x y z hx hy hz l m hm]

theorem C36_tetrahedron2 (L : ℕ) (mass x y1 y2 z : ℝ) (hx : 0 < x) (hy : y1 ≠ y2) (hz : 0 < z) :
    tetrahedron2 L mass x y1 y2 z = .ok (Mom.ofFn L (uniformMoment mass (coneOver z (triangle (x, y1) (x, y2))))) := by
  rw [tetrahedron2, if_neg (by push Not; exact ⟨hx, hy, hz⟩)]
  rw [fill_eq L _ mass _ fun l m hm _ => tet2_cell mass x y1 y2 z hx hy hz l m hm]

theorem C36_pyramid (L : ℕ) (mass x y z : ℝ) (hx : 0 < x) (hy : 0 < y) (hz : 0 < z) :
    pyramid L mass x y z = .ok (Mom.ofFn L (uniformMoment mass (coneOver z (rectangle (2 * x) (2 * y))))) := by
  rw [pyramid, if_neg (by push Not; exact ⟨hx, hy, hz⟩)]
  rw [fill_eq L _ mass _ fun l m hm _ => pyr_cell mass x y z hx hy hz l m hm]

/-- What the parameter check accepts (up to an empty sector, see `C36_annulus_empty`) is what the
documented solid needs: the converse of `C36_annulus`. -/
theorem C36_annulus_accepts (L : ℕ) (mass H Ri Ro phic phih : ℝ) (q : Mom L)
    (h : annulus L mass H Ri Ro phic phih = .ok q) :
    0 < H ∧ 0 ≤ Ri ∧ Ri < Ro ∧ 0 < phih ∧ phih ≤ Real.pi := by
  rw [annulus] at h
  split_ifs at h with h1
  push Not at h1
  simp only at h
  split_ifs at h with h2
  refine ⟨h1.1, h1.2.2.2.2, lt_of_le_of_ne h1.2.1 ?_, h1.2.2.1, h1.2.2.2.1⟩
  rintro rfl; exact h2 (by ring)

/-- `Ro = Ri` is not rejected: the result is an array of NaN. -/
theorem C36_annulus_empty (L : ℕ) (mass H R phic phih : ℝ) (hH : 0 < H) (hR : 0 ≤ R) (h0 : 0 < phih)
    (hpi : phih ≤ Real.pi) : annulus L mass H R R phic phih = .nan := by
  rw [annulus, if_neg (by push Not; exact ⟨hH, le_rfl, h0, hpi, hR⟩)]
  simp

/-! ## C35: the monopole -/

theorem fill_zero {L : ℕ} {val : ℕ → ℕ → ℂ} {x : ℝ} (h : val 0 0 = x) : (fill L val).get 0 0 = x := by
  rw [fill, Mom.get_fillNeg _ (Nat.zero_le _) (by simp)]
  simp only [neg_zero, if_true]
  rw [Mom.get_ofFn _ (Nat.zero_le _) (by simp), if_pos (by simp)]
  simp [h]

theorem lmfac_zero : lmfac 0 0 = 1 := by rw [lmfac_eq 0 0 le_rfl]; simp
theorem gam3_zero : gam3 0 0 0 = 1 := by rw [gam3_eq 0 0 0 le_rfl]; simp
theorem spComb_zero : spComb 0 0 = 1 := by
  have := spComb_nat 0 0; simpa using this
theorem gl2 : gammaln 2 = 0 := by
  have := exp_gammaln_nat 2 1 (by norm_num)
  simpa [Real.exp_eq_one_iff] using this
theorem eg4 : Real.exp (gammaln 4) = 6 := by
  rw [exp_gammaln_nat 4 3 (by norm_num)]; simp [Nat.factorial]
theorem gl1 : gammaln 1 = 0 := by
  have := exp_gammaln_nat 1 0 (by norm_num)
  simpa [Real.exp_eq_one_iff] using this
theorem factor_eq (mass : ℝ) : factor mass = mass / Real.sqrt (4 * Real.pi) := by
  rw [factor, one_div, Real.sqrt_inv]; ring


theorem C35_sphere (L : ℕ) (mass R : ℝ) :
    (sphere L mass R).get 0 0 = ((mass / Real.sqrt (4 * Real.pi) : ℝ) : ℂ) := by
  rw [sphere, Mom.get_ofFn _ (Nat.zero_le _) (by simp)]; simp

theorem C35_cylinder (L : ℕ) (mass H R : ℝ) (q : Mom L) (h : cylinder L mass H R = .ok q) :
    q.get 0 0 = ((mass / Real.sqrt (4 * Real.pi) : ℝ) : ℂ) := by
  rw [cylinder] at h
  split_ifs at h with h1
  injection h with h
  rw [← h, Mom.get_ofFn _ (Nat.zero_le _) (by simp), if_pos ⟨rfl, rfl⟩, mul_one, factor_eq]

theorem C35_annulus (L : ℕ) (mass H Ri Ro phic phih : ℝ) (q : Mom L)
    (h : annulus L mass H Ri Ro phic phih = .ok q) :
    q.get 0 0 = ((mass / Real.sqrt (4 * Real.pi) : ℝ) : ℂ) := by
  rw [annulus] at h
  split_ifs at h with h1
  simp only at h
  split_ifs at h with h2
  injection h with h
  rw [← h]
  apply fill_zero
  have h3 : ((Ro ^ 2 - Ri ^ 2 : ℝ) : ℂ) ≠ 0 := by exact_mod_cast h2
  rw [div_eq_iff h3, annulusCell]
  simp [gam3_zero, lmfac_zero, sinc, phase, factor_eq]
  field_simp

theorem C35_cone (L : ℕ) (mass P R phic phih : ℝ) (q : Mom L)
    (h : cone L mass P R phic phih = .ok q) :
    q.get 0 0 = ((mass / Real.sqrt (4 * Real.pi) : ℝ) : ℂ) := by
  rw [cone] at h
  split_ifs at h with h1
  injection h with h
  rw [← h]
  apply fill_zero
  have g0 : gammaln 1 = 0 := gl1
  have g2 : gammaln 2 = 0 := gl2
  have g4 : Real.exp (gammaln 4) = 6 := eg4
  simp [coneCell, gam3_zero, lmfac_zero, sinc, phase, factor_eq, spComb_zero, g0, g2, g4]
  try field_simp
  try ring

theorem C35_tri_iso_prism (L : ℕ) (mass H a d phic : ℝ) (q : Mom L)
    (h : triIsoPrism L mass H a d phic = .ok q) :
    q.get 0 0 = ((mass / Real.sqrt (4 * Real.pi) : ℝ) : ℂ) := by
  rw [triIsoPrism] at h
  split_ifs at h with h1
  injection h with h
  rw [← h]
  apply fill_zero
  have g0 : gammaln 1 = 0 := gl1
  have g2 : gammaln 2 = 0 := gl2
  have g4 : Real.exp (gammaln 4) = 6 := eg4
  simp [isoCell, isoPsum, gam3_zero, lmfac_zero, sinc, phase, factor_eq, spComb_zero, g0, g2, g4]
  try field_simp
  try ring

theorem C35_tri_iso_prism2 (L : ℕ) (mass H R phic phih : ℝ) (q : Mom L)
    (h : triIsoPrism2 L mass H R phic phih = .ok q) :
    q.get 0 0 = ((mass / Real.sqrt (4 * Real.pi) : ℝ) : ℂ) := by
  rw [triIsoPrism2] at h
  split_ifs at h with h1
  injection h with h
  rw [← h]
  apply fill_zero
  have g0 : gammaln 1 = 0 := gl1
  have g2 : gammaln 2 = 0 := gl2
  have g4 : Real.exp (gammaln 4) = 6 := eg4
  simp [isoCell, isoPsum, gam3_zero, lmfac_zero, sinc, phase, factor_eq, spComb_zero, g0, g2, g4]
  try field_simp
  try ring

theorem C35_tri_prism (L : ℕ) (mass H d y1 y2 : ℝ) (q : Mom L)
    (h : triPrism L mass H d y1 y2 = .ok q) :
    q.get 0 0 = ((mass / Real.sqrt (4 * Real.pi) : ℝ) : ℂ) := by
  rw [triPrism] at h
  split_ifs at h with h1
  injection h with h
  rw [← h]
  apply fill_zero
  have g0 : gammaln 1 = 0 := gl1
  have g2 : gammaln 2 = 0 := gl2
  have g4 : Real.exp (gammaln 4) = 6 := eg4
  have hy : (y2 : ℂ) - y1 ≠ 0 := by
    push Not at h1; exact sub_ne_zero.2 (by exact_mod_cast h1.2.2.symm)
  simp [triCell, triPsum, gam3_zero, lmfac_zero, sinc, phase, factor_eq, spComb_zero, g0, g2, g4]
  field_simp

theorem C35_rect_prism (L : ℕ) (mass H a b phic : ℝ) (q : Mom L)
    (h : rectPrism L mass H a b phic = .ok q) :
    q.get 0 0 = ((mass / Real.sqrt (4 * Real.pi) : ℝ) : ℂ) := by
  rw [rectPrism] at h
  split_ifs at h with h1
  injection h with h
  rw [← h]
  apply fill_zero
  have g0 : gammaln 1 = 0 := gl1
  have g2 : gammaln 2 = 0 := gl2
  have g4 : Real.exp (gammaln 4) = 6 := eg4
  simp [rectCell, rectPsum, gam3_zero, lmfac_zero, sinc, phase, factor_eq, spComb_zero, g0, g2, g4]
  try field_simp
  try ring

theorem C35_ngon_prism (L : ℕ) (mass H a phic : ℝ) (N : ℕ) (q : Mom L)
    (h : ngonPrism L mass H a phic N = .ok q) :
    q.get 0 0 = ((mass / Real.sqrt (4 * Real.pi) : ℝ) : ℂ) := by
  rw [ngonPrism] at h
  split_ifs at h with h1
  injection h with h
  rw [← h]
  apply fill_zero
  have g0 : gammaln 1 = 0 := gl1
  have g2 : gammaln 2 = 0 := gl2
  have g4 : Real.exp (gammaln 4) = 6 := eg4
  simp [ngonCell, ngonPsum, gam3_zero, lmfac_zero, sinc, phase, factor_eq, spComb_zero, g0, g2, g4]

theorem C35_tetrahedron (L : ℕ) (mass x y z : ℝ) (q : Mom L)
    (h : tetrahedron L mass x y z = .ok q) :
    q.get 0 0 = ((mass / Real.sqrt (4 * Real.pi) : ℝ) : ℂ) := by
  rw [tetrahedron] at h
  split_ifs at h with h1
  injection h with h
  rw [← h]
  apply fill_zero
  have g0 : gammaln 1 = 0 := gl1
  have g2 : gammaln 2 = 0 := gl2
  have g4 : Real.exp (gammaln 4) = 6 := eg4
  simp [tetCell, tetPsum, gam3_zero, lmfac_zero, sinc, phase, factor_eq, spComb_zero, g0, g2, g4]

theorem C35_tetrahedron2 (L : ℕ) (mass x y1 y2 z : ℝ) (q : Mom L)
    (h : tetrahedron2 L mass x y1 y2 z = .ok q) :
    q.get 0 0 = ((mass / Real.sqrt (4 * Real.pi) : ℝ) : ℂ) := by
  rw [tetrahedron2] at h
  split_ifs at h with h1
  injection h with h
  rw [← h]
  apply fill_zero
  have g0 : gammaln 1 = 0 := gl1
  have g2 : gammaln 2 = 0 := gl2
  have g4 : Real.exp (gammaln 4) = 6 := eg4
  have hy : (y2 : ℂ) - y1 ≠ 0 := by
    push Not at h1; exact sub_ne_zero.2 (by exact_mod_cast h1.2.1.symm)
  simp [tet2Cell, tet2Psum, gam3_zero, lmfac_zero, sinc, phase, factor_eq, spComb_zero, g0, g2, g4]
  field_simp

theorem C35_pyramid (L : ℕ) (mass x y z : ℝ) (q : Mom L)
    (h : pyramid L mass x y z = .ok q) :
    q.get 0 0 = ((mass / Real.sqrt (4 * Real.pi) : ℝ) : ℂ) := by
  rw [pyramid] at h
  split_ifs at h with h1
  injection h with h
  rw [← h]
  apply fill_zero
  have g0 : gammaln 1 = 0 := gl1
  have g2 : gammaln 2 = 0 := gl2
  have g4 : Real.exp (gammaln 4) = 6 := eg4
  simp [pyrCell, pyrPsum, gam3_zero, lmfac_zero, sinc, phase, factor_eq, spComb_zero, g0, g2, g4]
  try field_simp
  try ring

/-! ## C37: reality and discrete symmetries, for whatever the constructors accept -/

theorem valid_fill (L : ℕ) (val : ℕ → ℕ → ℂ) : Valid (fill L val) := by
  constructor
  · intro l m hl hm
    rw [fill, Mom.get_fillNeg _ hl (by omega), Mom.get_fillNeg _ hl hm]
    simp only [neg_neg, Int.natAbs_neg]
    by_cases h : m = 0
    · subst h; simp [show (starRingEnd ℂ) 2 = 2 from Complex.conj_ofNat 2]; ring
    · rw [if_neg (by omega), if_neg h, map_add, map_mul, Complex.conj_conj]
      have : (starRingEnd ℂ) ((-1 : ℂ) ^ m.natAbs) = (-1) ^ m.natAbs := by simp
      rw [this, mul_add, mul_left_comm, ← mul_pow]; simp; ring
  · intro l m hl hm h
    rw [fill, Mom.get_fillNeg _ hl hm, Mom.get_ofFn _ hl hm, Mom.get_ofFn _ hl (by omega),
      if_neg (by omega : ¬ (0 ≤ m ∧ m ≤ (l : ℤ))), if_neg (by omega : ¬ (0 ≤ -m ∧ -m ≤ (l : ℤ)))]
    simp

theorem fill_vanish (L : ℕ) (val : ℕ → ℕ → ℂ) (l : ℕ) (m : ℤ) (hl : l ≤ L) (hm : m.natAbs ≤ L)
    (h : val l m.natAbs = 0) : (fill L val).get l m = 0 := by
  rw [fill, Mom.get_fillNeg _ hl hm, Mom.get_ofFn _ hl hm, Mom.get_ofFn _ hl (by omega)]
  have h1 : (if 0 ≤ m ∧ m ≤ l then val l m.toNat else 0) = 0 := by
    split_ifs with hc
    · rw [show m.toNat = m.natAbs by omega, h]
    · rfl
  have h2 : (if 0 ≤ -m ∧ -m ≤ l then val l (-m).toNat else 0) = 0 := by
    split_ifs with hc
    · rw [show (-m).toNat = m.natAbs by omega, h]
    · rfl
  rw [h1, h2]; simp

theorem C37_sphere (L : ℕ) (mass R : ℝ) : Valid (sphere L mass R) ∧
    ∀ l m, l ≤ L → m.natAbs ≤ L → 0 < l → (sphere L mass R).get l m = 0 := by
  refine ⟨valid_ofFn _ ?_ ?_, ?_⟩
  · intro l m _ _
    by_cases h : l = 0 ∧ m = 0
    · obtain ⟨rfl, rfl⟩ := h; simp [-Complex.ofReal_div]
    · rw [if_neg (by omega), if_neg h]; simp
  · intro l m _ h; rw [if_neg (by omega)]
  · intro l m hl hm h; rw [sphere, Mom.get_ofFn _ hl hm, if_neg (by omega)]

theorem C37_cylinder (L : ℕ) (mass H R : ℝ) (q : Mom L) (h : cylinder L mass H R = .ok q) :
    Valid q ∧ ∀ l m, l ≤ L → m.natAbs ≤ L → m ≠ 0 ∨ l % 2 = 1 → q.get l m = 0 := by
  rw [cylinder] at h
  split_ifs at h with h1
  injection h with h
  subst h
  refine ⟨valid_ofFn _ ?_ ?_, ?_⟩
  · intro l m _ _
    by_cases hm : m = 0
    · subst hm
      simp only [neg_zero, true_and, Int.natAbs_zero, pow_zero, one_mul]
      split_ifs
      · rw [Complex.conj_ofReal]
      · rw [Complex.conj_ofReal]
      · simp
    · rw [if_neg (by omega), if_neg (by omega), if_neg (by omega), if_neg (by omega)]; simp
  · intro l m _ h; rw [if_neg (by omega), if_neg (by omega)]
  · intro l m hl hm h; rw [Mom.get_ofFn _ hl hm, if_neg (by omega), if_neg (by omega)]

theorem C37_annulus (L : ℕ) (mass H Ri Ro phic phih : ℝ) (q : Mom L)
    (h : annulus L mass H Ri Ro phic phih = .ok q) :
    Valid q ∧ ∀ l m, l ≤ L → m.natAbs ≤ L → (l + m.natAbs) % 2 = 1 → q.get l m = 0 := by
  rw [annulus] at h
  split_ifs at h with h1
  simp only at h
  split_ifs at h with h2
  injection h with h
  subst h
  refine ⟨valid_fill _ _, fun l m hl hm hp => ?_⟩
  by_cases hml : m.natAbs ≤ l
  · exact fill_vanish L _ l m hl hm (by rw [annulusCell, if_neg (by omega), zero_div])
  · exact (valid_fill L _).2 l m hl hm (by omega)

theorem C37_cone (L : ℕ) (mass P R phic phih : ℝ) (q : Mom L)
    (h : cone L mass P R phic phih = .ok q) : Valid q := by
  rw [cone] at h
  split_ifs at h with h1
  injection h with h
  subst h
  exact valid_fill _ _

theorem C37_tri_iso_prism (L : ℕ) (mass H a d phic : ℝ) (q : Mom L)
    (h : triIsoPrism L mass H a d phic = .ok q) :
    Valid q ∧ ∀ l m, l ≤ L → m.natAbs ≤ L → (l + m.natAbs) % 2 = 1 → q.get l m = 0 := by
  rw [triIsoPrism] at h
  split_ifs at h with h1
  injection h with h
  subst h
  refine ⟨valid_fill _ _, fun l m hl hm hp => ?_⟩
  by_cases hml : m.natAbs ≤ l
  · exact fill_vanish L _ l m hl hm (by rw [isoCell, if_neg (by omega)])
  · exact (valid_fill L _).2 l m hl hm (by omega)

theorem C37_tri_iso_prism2 (L : ℕ) (mass H R phic phih : ℝ) (q : Mom L)
    (h : triIsoPrism2 L mass H R phic phih = .ok q) :
    Valid q ∧ ∀ l m, l ≤ L → m.natAbs ≤ L → (l + m.natAbs) % 2 = 1 → q.get l m = 0 := by
  rw [triIsoPrism2] at h
  split_ifs at h with h1
  injection h with h
  subst h
  refine ⟨valid_fill _ _, fun l m hl hm hp => ?_⟩
  by_cases hml : m.natAbs ≤ l
  · exact fill_vanish L _ l m hl hm (by rw [isoCell, if_neg (by omega)])
  · exact (valid_fill L _).2 l m hl hm (by omega)

theorem C37_tri_prism (L : ℕ) (mass H d y1 y2 : ℝ) (q : Mom L)
    (h : triPrism L mass H d y1 y2 = .ok q) :
    Valid q ∧ ∀ l m, l ≤ L → m.natAbs ≤ L → (l + m.natAbs) % 2 = 1 → q.get l m = 0 := by
  rw [triPrism] at h
  split_ifs at h with h1
  injection h with h
  subst h
  refine ⟨valid_fill _ _, fun l m hl hm hp => ?_⟩
  by_cases hml : m.natAbs ≤ l
  · exact fill_vanish L _ l m hl hm (by rw [triCell, if_neg (by omega)])
  · exact (valid_fill L _).2 l m hl hm (by omega)

theorem C37_rect_prism (L : ℕ) (mass H a b phic : ℝ) (q : Mom L)
    (h : rectPrism L mass H a b phic = .ok q) :
    Valid q ∧ ∀ l m, l ≤ L → m.natAbs ≤ L → l % 2 = 1 ∨ m % 2 = 1 → q.get l m = 0 := by
  rw [rectPrism] at h
  split_ifs at h with h1
  injection h with h
  subst h
  refine ⟨valid_fill _ _, fun l m hl hm hp => ?_⟩
  by_cases hml : m.natAbs ≤ l
  · exact fill_vanish L _ l m hl hm (by rw [rectCell, if_neg (by omega)])
  · exact (valid_fill L _).2 l m hl hm (by omega)

theorem C37_ngon_prism (L : ℕ) (mass H a phic : ℝ) (N : ℕ) (q : Mom L)
    (h : ngonPrism L mass H a phic N = .ok q) :
    Valid q ∧ ∀ l m, l ≤ L → m.natAbs ≤ L → (l + m.natAbs) % 2 = 1 ∨ ¬ (N : ℤ) ∣ m → q.get l m = 0 := by
  rw [ngonPrism] at h
  split_ifs at h with h1
  injection h with h
  subst h
  refine ⟨valid_fill _ _, fun l m hl hm hp => ?_⟩
  by_cases hml : m.natAbs ≤ l
  · exact fill_vanish L _ l m hl hm (by rw [ngonCell, if_neg (by
      rintro ⟨h3, h4⟩
      rcases hp with hp | hp
      · omega
      · exact hp (Int.natCast_dvd.2 (Nat.dvd_of_mod_eq_zero h3)))])
  · exact (valid_fill L _).2 l m hl hm (by omega)

theorem C37_tetrahedron (L : ℕ) (mass x y z : ℝ) (q : Mom L)
    (h : tetrahedron L mass x y z = .ok q) : Valid q := by
  rw [tetrahedron] at h
  split_ifs at h with h1
  injection h with h
  subst h
  exact valid_fill _ _

theorem C37_tetrahedron2 (L : ℕ) (mass x y1 y2 z : ℝ) (q : Mom L)
    (h : tetrahedron2 L mass x y1 y2 z = .ok q) : Valid q := by
  rw [tetrahedron2] at h
  split_ifs at h with h1
  injection h with h
  subst h
  exact valid_fill _ _

theorem C37_pyramid (L : ℕ) (mass x y z : ℝ) (q : Mom L)
    (h : pyramid L mass x y z = .ok q) :
    Valid q ∧ ∀ l m, l ≤ L → m.natAbs ≤ L → m % 2 = 1 → q.get l m = 0 := by
  rw [pyramid] at h
  split_ifs at h with h1
  injection h with h
  subst h
  refine ⟨valid_fill _ _, fun l m hl hm hp => ?_⟩
  by_cases hml : m.natAbs ≤ l
  · exact fill_vanish L _ l m hl hm (by rw [pyrCell, if_neg (by omega)])
  · exact (valid_fill L _).2 l m hl hm (by omega)

/-! ## The hypotheses are met -/

example : ∃ q : Mom 4, annulus 4 3 1 1 2 (1 / 10) 1 = .ok q :=
  ⟨_, C36_annulus 4 3 1 1 2 (1 / 10) 1 (by norm_num) (by norm_num) (by norm_num) (by norm_num)
    (by linarith [Real.pi_gt_three])⟩
example : ∃ q : Mom 4, cylinder 4 3 1 2 = .ok q := ⟨_, C36_cylinder 4 3 1 2 (by norm_num) (by norm_num)⟩
example : ∃ q : Mom 4, cone 4 3 1 2 (1 / 10) 1 = .ok q :=
  ⟨_, C36_cone 4 3 1 2 (1 / 10) 1 (by norm_num) (by norm_num) (by norm_num) (by linarith [Real.pi_gt_three])⟩
example : ∃ q : Mom 4, triIsoPrism 4 3 1 2 (-1) 0 = .ok q :=
  ⟨_, C36_tri_iso_prism 4 3 1 2 (-1) 0 (by norm_num) (by norm_num) (by norm_num)⟩
example : ∃ q : Mom 4, triIsoPrism2 4 3 1 2 0 1 = .ok q :=
  ⟨_, C36_tri_iso_prism2 4 3 1 2 0 1 (by norm_num) (by norm_num) (by norm_num) (by linarith [Real.pi_gt_three])⟩
example : ∃ q : Mom 4, triPrism 4 3 1 2 (-1) 5 = .ok q :=
  ⟨_, C36_tri_prism 4 3 1 2 (-1) 5 (by norm_num) (by norm_num) (by norm_num)⟩
example : ∃ q : Mom 4, rectPrism 4 3 1 2 5 1 = .ok q :=
  ⟨_, C36_rect_prism 4 3 1 2 5 1 (by norm_num) (by norm_num) (by norm_num)⟩
example : ∃ q : Mom 4, ngonPrism 4 3 1 2 0 6 = .ok q :=
  ⟨_, C36_ngon_prism 4 3 1 2 0 6 (by norm_num) (by norm_num) (by norm_num)⟩
example : ∃ q : Mom 4, tetrahedron 4 3 1 2 5 = .ok q :=
  ⟨_, C36_tetrahedron 4 3 1 2 5 (by norm_num) (by norm_num) (by norm_num)⟩
example : ∃ q : Mom 4, tetrahedron2 4 3 1 2 (-1) 5 = .ok q :=
  ⟨_, C36_tetrahedron2 4 3 1 2 (-1) 5 (by norm_num) (by norm_num) (by norm_num)⟩
example : ∃ q : Mom 4, pyramid 4 3 1 2 5 = .ok q :=
  ⟨_, C36_pyramid 4 3 1 2 5 (by norm_num) (by norm_num) (by norm_num)⟩

/-- The integrals are not all zero: the monopole of a body of positive mass is positive. -/
example : uniformMoment 3 (prism 1 (sector 1 2 (1 / 10) 1)) 0 0 ≠ 0 := by
  have h := C36_annulus 4 3 1 1 2 (1 / 10) 1 (by norm_num) (by norm_num) (by norm_num) (by norm_num)
    (by linarith [Real.pi_gt_three])
  have h2 := C35_annulus _ _ _ _ _ _ _ _ h
  rw [Mom.get_ofFn _ (by norm_num) (by norm_num)] at h2
  rw [h2]
  have := Real.pi_pos
  exact_mod_cast (by positivity : (3 / Real.sqrt (4 * Real.pi) : ℝ) ≠ 0)

end Newt
