import Verif.Proofs.BallShells
import Verif.Proofs.ShellTheorem
import Verif.Props.Axial
import Verif.Spec.YukawaSphere

/-! # The Yukawa attraction of shells and balls -/

namespace Newt

open MeasureTheory Spec Filter Topology

/-! ## central fields of the shell -/

theorem ball_inv_rz (t R : ℝ) (f : V3 → ℝ) : ∫ v in ball R, f (rz t v) = ∫ v in ball R, f v := by
  rw [← (rz_mp t).setIntegral_image_emb (rzE t).measurableEmbedding f (ball R)]
  exact congrArg (fun S => ∫ v in S, f v) (ball_rz R t)

theorem ball_inv_ry (t R : ℝ) (f : V3 → ℝ) : ∫ v in ball R, f (ry t v) = ∫ v in ball R, f v := by
  rw [← (ry_mp t).setIntegral_image_emb (ryE t).measurableEmbedding f (ball R)]
  exact congrArg (fun S => ∫ v in S, f v) (ball_ry R t)

theorem shell_rot (alpha beta : ℝ) {r : ℝ} (hr : 0 < r) (f : V3 → ℝ) (hf : Continuous f) :
    ∫ v, f (rz alpha (ry beta v)) ∂shellMu r = ∫ v, f v ∂shellMu r :=
  shell_invariant (fun v => rz alpha (ry beta v)) ((rz_cont alpha).comp (ry_cont beta))
    (fun R f _ => by rw [ball_inv_ry beta R fun v => f (rz alpha v), ball_inv_rz]) hr f hf

/-- Every point is the z axis turned. -/
theorem exists_direction (x : V3) : ∃ alpha beta : ℝ, rz alpha (ry beta ![0, 0, modulus x]) = x := by
  have h0 := modulus_nonneg x
  have hsq : modulus x ^ 2 = x 0 ^ 2 + x 1 ^ 2 + x 2 ^ 2 := by rw [modulus, Real.sq_sqrt (by positivity)]
  by_cases hx : modulus x = 0
  · refine ⟨0, 0, ?_⟩
    rw [(modulus_eq_zero x).1 hx]
    rw [(modulus_eq_zero x).1 hx] at hx
    rw [hx]
    funext i; fin_cases i <;> simp [rz, ry]
  have hpos : 0 < modulus x := lt_of_le_of_ne h0 (Ne.symm hx)
  set ρ := Real.sqrt (x 0 ^ 2 + x 1 ^ 2) with hρ
  have hρ2 : ρ ^ 2 = x 0 ^ 2 + x 1 ^ 2 := Real.sq_sqrt (by positivity)
  have hρ0 : 0 ≤ ρ := Real.sqrt_nonneg _
  have hz : |x 2| ≤ modulus x := (by rw [modulus]; exact Real.abs_le_sqrt (by nlinarith [sq_nonneg (x 0), sq_nonneg (x 1)]))
  have hle := abs_le.1 hz
  have hb1 : -1 ≤ x 2 / modulus x := by rw [le_div_iff₀ hpos]; linarith [hle.1]
  have hb2 : x 2 / modulus x ≤ 1 := by rw [div_le_one hpos]; exact hle.2
  have hcos : Real.cos (Real.arccos (x 2 / modulus x)) = x 2 / modulus x := Real.cos_arccos hb1 hb2
  have hsin : Real.sin (Real.arccos (x 2 / modulus x)) = ρ / modulus x := by
    rw [Real.sin_arccos, Real.sqrt_eq_iff_mul_self_eq (by rw [sub_nonneg]; exact (sq_le_one_iff_abs_le_one _).2 (abs_le.2 ⟨hb1, hb2⟩)) (by positivity)]
    field_simp
    linarith
  refine ⟨Complex.arg ⟨x 0, x 1⟩, Real.arccos (x 2 / modulus x), ?_⟩
  have hn : ‖(⟨x 0, x 1⟩ : ℂ)‖ = ρ := by
    rw [Complex.norm_def, Complex.normSq_mk, hρ]; congr 1; ring
  have hc := Complex.norm_mul_cos_arg (⟨x 0, x 1⟩ : ℂ)
  have hs := Complex.norm_mul_sin_arg (⟨x 0, x 1⟩ : ℂ)
  rw [hn] at hc hs
  simp only at hc hs
  funext i
  fin_cases i <;> simp [rz, ry, hcos, hsin]
  · field_simp; linarith
  · field_simp; linarith
  · field_simp

/-- The field of the shell on the axis, for a central force of strength `w`. -/
theorem shell_axis (w : ℝ → ℝ) (hw : Continuous w) (r D : ℝ) (i : Fin 3) :
    ∫ y, w (modulus (y - ![0, 0, D])) * (y - ![0, 0, D]) i ∂shellMu r =
      ![0, 0, 1 / 2 * ∫ u in (-1 : ℝ)..1, w (Real.sqrt (r ^ 2 + D ^ 2 - 2 * r * D * u)) * (r * u - D)] i := by
  have hpi := Real.pi_pos
  have hc : Continuous fun y : V3 => w (modulus (y - ![0, 0, D])) * (y - ![0, 0, D]) i :=
    (hw.comp (modulus_continuous.comp (continuous_id.sub continuous_const))).mul
      ((continuous_apply i).comp (continuous_id.sub continuous_const))
  rw [shellMu_integral r _ hc]
  have hmod : ∀ φ : ℝ, ∀ u ∈ Set.uIcc (-1 : ℝ) 1, modulus (shellMap r (u, φ) - ![0, 0, D]) = Real.sqrt (r ^ 2 + D ^ 2 - 2 * r * D * u) := by
    intro φ u hu
    rw [Set.uIcc_of_le (by norm_num)] at hu
    have hs : Real.sqrt (1 - u ^ 2) ^ 2 = 1 - u ^ 2 := Real.sq_sqrt (by nlinarith [hu.1, hu.2])
    rw [modulus]
    congr 1
    simp only [shellMap, Pi.sub_apply, Matrix.cons_val]
    linear_combination (r ^ 2 * Real.sqrt (1 - u ^ 2) ^ 2) * Real.sin_sq_add_cos_sq φ + r ^ 2 * hs
  have hflat : ∀ g : ℝ → ℝ, (∫ φ in (-Real.pi)..Real.pi, g φ) = 0 → ∀ h : ℝ → ℝ,
      (∀ φ u, (shellMap r (u, φ) - ![0, 0, D]) i = h u * g φ) →
      (1 / (4 * Real.pi)) • ∫ φ in (-Real.pi)..Real.pi, ∫ u in (-1 : ℝ)..1,
        w (modulus (shellMap r (u, φ) - ![0, 0, D])) * (shellMap r (u, φ) - ![0, 0, D]) i = 0 := by
    intro g hg h hh
    have e : ∀ φ : ℝ, ∫ u in (-1 : ℝ)..1, w (modulus (shellMap r (u, φ) - ![0, 0, D])) * (shellMap r (u, φ) - ![0, 0, D]) i =
        (∫ u in (-1 : ℝ)..1, w (Real.sqrt (r ^ 2 + D ^ 2 - 2 * r * D * u)) * h u) * g φ := by
      intro φ
      rw [← intervalIntegral.integral_mul_const]
      apply intervalIntegral.integral_congr
      intro u hu
      simp only
      rw [hmod φ u hu, hh]; ring
    simp only [e]
    rw [intervalIntegral.integral_const_mul, hg, mul_zero, smul_zero]
  fin_cases i
  · exact hflat Real.cos (by simp) (fun u => r * Real.sqrt (1 - u ^ 2)) fun φ u => by simp [shellMap]
  · exact hflat Real.sin (by simp) (fun u => r * Real.sqrt (1 - u ^ 2)) fun φ u => by simp [shellMap]
  · have e : ∀ φ : ℝ, ∫ u in (-1 : ℝ)..1, w (modulus (shellMap r (u, φ) - ![0, 0, D])) * (shellMap r (u, φ) - ![0, 0, D]) 2 =
        ∫ u in (-1 : ℝ)..1, w (Real.sqrt (r ^ 2 + D ^ 2 - 2 * r * D * u)) * (r * u - D) := by
      intro φ
      apply intervalIntegral.integral_congr
      intro u hu
      simp only
      rw [hmod φ u hu]
      simp [shellMap]
    change (1 / (4 * Real.pi)) • (∫ φ in (-Real.pi)..Real.pi, ∫ u in (-1 : ℝ)..1, w (modulus (shellMap r (u, φ) - ![0, 0, D])) * (shellMap r (u, φ) - ![0, 0, D]) 2) = _
    simp only [e]
    rw [intervalIntegral.integral_const, smul_eq_mul, smul_eq_mul]
    simp only [Fin.reduceFinMk, Matrix.cons_val]
    field_simp
    ring

theorem rz_sub (t : ℝ) (u v : V3) : rz t (u - v) = rz t u - rz t v := by
  funext i; fin_cases i <;> simp [rz] <;> ring

theorem ry_sub (t : ℝ) (u v : V3) : ry t (u - v) = ry t u - ry t v := by
  funext i; fin_cases i <;> simp [ry] <;> ring

/-- The field of the shell at any point, for a central force of strength `w`. -/
theorem shell_central (w : ℝ → ℝ) (hw : Continuous w) {r : ℝ} (hr : 0 < r) (x : V3) (hx : x ≠ 0) (i : Fin 3) :
    ∫ y, w (modulus (y - x)) * (y - x) i ∂shellMu r =
      (1 / 2 * ∫ u in (-1 : ℝ)..1, w (Real.sqrt (r ^ 2 + modulus x ^ 2 - 2 * r * modulus x * u)) * (r * u - modulus x)) * (x i / modulus x) := by
  have hD : modulus x ≠ 0 := fun h => hx ((modulus_eq_zero x).1 h)
  obtain ⟨alpha, beta, hab⟩ := exists_direction x
  set D := modulus x with hDd
  set A := 1 / 2 * ∫ u in (-1 : ℝ)..1, w (Real.sqrt (r ^ 2 + D ^ 2 - 2 * r * D * u)) * (r * u - D) with hA
  have hc : ∀ j, Continuous fun y : V3 => w (modulus (y - x)) * (y - x) j := fun j =>
    (hw.comp (modulus_continuous.comp (continuous_id.sub continuous_const))).mul
      ((continuous_apply j).comp (continuous_id.sub continuous_const))
  have hc' : ∀ j, Continuous fun y : V3 => w (modulus (y - ![0, 0, D])) * (y - ![0, 0, D]) j := fun j =>
    (hw.comp (modulus_continuous.comp (continuous_id.sub continuous_const))).mul
      ((continuous_apply j).comp (continuous_id.sub continuous_const))
  rw [← shell_rot alpha beta hr _ (hc i)]
  have e1 : ∀ y : V3, rz alpha (ry beta y) - x = rz alpha (ry beta (y - ![0, 0, D])) := fun y => by
    rw [ry_sub, rz_sub, hab]
  simp only [e1, rz_modulus, ry_modulus]
  have hfin : IsFiniteMeasure (shellMu r) := ⟨by rw [shellMu_univ]; simp⟩
  have hI : ∀ j, Integrable (fun y : V3 => w (modulus (y - ![0, 0, D])) * (y - ![0, 0, D]) j) (shellMu r) := by
    intro j
    have hres : (shellMu r).restrict {v : V3 | modulus v = r} = shellMu r := Measure.restrict_eq_self_of_ae_mem (shell_ae hr.le)
    rw [← hres]
    exact (hc' j).continuousOn.integrableOn_compact
      ((ball_compact r).of_isClosed_subset (isClosed_eq modulus_continuous continuous_const) fun v hv => le_of_eq hv)
  have hax := shell_axis w hw r D
  have key : ∀ a b c : ℝ, (∀ v : V3, rz alpha (ry beta v) i = a * v 0 + b * v 1 + c * v 2) →
      ∫ y, w (modulus (y - ![0, 0, D])) * rz alpha (ry beta (y - ![0, 0, D])) i ∂shellMu r = A * (x i / D) := by
    intro a b c h
    have e2 : (fun y : V3 => w (modulus (y - ![0, 0, D])) * rz alpha (ry beta (y - ![0, 0, D])) i) = fun y =>
        (a * (w (modulus (y - ![0, 0, D])) * (y - ![0, 0, D]) 0) + b * (w (modulus (y - ![0, 0, D])) * (y - ![0, 0, D]) 1)) +
          c * (w (modulus (y - ![0, 0, D])) * (y - ![0, 0, D]) 2) := by
      funext y; rw [h]; ring
    rw [e2, integral_add (f := fun y : V3 => a * (w (modulus (y - ![0, 0, D])) * (y - ![0, 0, D]) 0) + b * (w (modulus (y - ![0, 0, D])) * (y - ![0, 0, D]) 1))
        (((hI 0).const_mul a).add ((hI 1).const_mul b)) ((hI 2).const_mul c),
      integral_add ((hI 0).const_mul a) ((hI 1).const_mul b), integral_const_mul, integral_const_mul, integral_const_mul, hax 0, hax 1, hax 2]
    have hxi : x i = c * D := by
      rw [← hab, h]; simp
    rw [hxi]
    simp only [Matrix.cons_val, ← hA]
    field_simp
    ring
  fin_cases i
  · exact key (Real.cos alpha * Real.cos beta) (-Real.sin alpha) (Real.cos alpha * Real.sin beta) fun v => by simp [rz, ry]; ring
  · exact key (Real.sin alpha * Real.cos beta) (Real.cos alpha) (Real.sin alpha * Real.sin beta) fun v => by simp [rz, ry]; ring
  · exact key (-Real.sin beta) 0 (Real.cos beta) fun v => by simp [rz, ry]

/-! ## the Yukawa kernel -/

/-- The strength of the Yukawa attraction, divided by the distance. -/
noncomputable def yukW (l s : ℝ) : ℝ := Real.exp (-s / l) * (1 + s / l) / s ^ 3

/-- An antiderivative used below. -/
noncomputable def yukPhi (l r D s : ℝ) : ℝ := Real.exp (-s / l) * ((D ^ 2 - r ^ 2) / s + (s + 2 * l))

theorem yukPhi_deriv (l r D s : ℝ) (hl : l ≠ 0) (hs : s ≠ 0) :
    HasDerivAt (yukPhi l r D) ((r ^ 2 - D ^ 2 - s ^ 2) * (s * yukW l s)) s := by
  have d1 : HasDerivAt (fun s : ℝ => Real.exp (-s / l)) (Real.exp (-s / l) * (-1 / l)) s := by
    have := ((hasDerivAt_id s).neg.div_const l).exp
    simpa using this
  have d2 : HasDerivAt (fun s : ℝ => (D ^ 2 - r ^ 2) / s + (s + 2 * l)) ((D ^ 2 - r ^ 2) * (-(s ^ 2)⁻¹) + 1) s := by
    have h1 : HasDerivAt (fun s : ℝ => (D ^ 2 - r ^ 2) / s) ((D ^ 2 - r ^ 2) * (-(s ^ 2)⁻¹)) s := by
      simpa [div_eq_mul_inv] using (hasDerivAt_inv hs).const_mul (D ^ 2 - r ^ 2)
    exact h1.add ((hasDerivAt_id s).add_const (2 * l))
  refine (d1.mul d2).congr_deriv ?_
  rw [yukW]
  field_simp
  ring

theorem yuk_u_int (l r D : ℝ) (hl : l ≠ 0) (hr : 0 < r) (hD : 0 < D) (hne : D ≠ r) :
    ∫ u in (-1 : ℝ)..1, yukW l (Real.sqrt (r ^ 2 + D ^ 2 - 2 * r * D * u)) * (r * u - D) =
      (yukPhi l r D (D + r) - yukPhi l r D |D - r|) / (2 * D ^ 2 * r) := by
  have hpos : ∀ u ∈ Set.uIcc (-1 : ℝ) 1, 0 < r ^ 2 + D ^ 2 - 2 * r * D * u := by
    intro u hu
    rw [Set.uIcc_of_le (by norm_num)] at hu
    have h1 : 0 < (D - r) ^ 2 := by
      have : D - r ≠ 0 := sub_ne_zero.2 hne
      positivity
    nlinarith [mul_pos hr hD, hu.2]
  have hd : ∀ u ∈ Set.uIcc (-1 : ℝ) 1, HasDerivAt (fun u : ℝ => -yukPhi l r D (Real.sqrt (r ^ 2 + D ^ 2 - 2 * r * D * u)) / (2 * D ^ 2 * r))
      (yukW l (Real.sqrt (r ^ 2 + D ^ 2 - 2 * r * D * u)) * (r * u - D)) u := by
    intro u hu
    have hp := hpos u hu
    have hs := Real.sqrt_pos.2 hp
    have d1 : HasDerivAt (fun u : ℝ => r ^ 2 + D ^ 2 - 2 * r * D * u) (-(2 * r * D)) u := by
      have := ((hasDerivAt_id u).const_mul (2 * r * D)).const_sub (r ^ 2 + D ^ 2)
      rw [mul_one] at this
      exact this
    have d2 := d1.sqrt hp.ne'
    have d3 := (((yukPhi_deriv l r D _ hl hs.ne').comp u d2).neg).div_const (2 * D ^ 2 * r)
    refine d3.congr_deriv ?_
    have hsq : Real.sqrt (r ^ 2 + D ^ 2 - 2 * r * D * u) ^ 2 = r ^ 2 + D ^ 2 - 2 * r * D * u := Real.sq_sqrt hp.le
    rw [hsq]
    have hs0 := hs.ne'
    generalize Real.sqrt (r ^ 2 + D ^ 2 - 2 * r * D * u) = S at hs0
    generalize yukW l S = W
    field_simp
    ring
  rw [intervalIntegral.integral_eq_sub_of_hasDerivAt hd]
  · have e1 : Real.sqrt (r ^ 2 + D ^ 2 - 2 * r * D * 1) = |D - r| := by
      rw [← Real.sqrt_sq_eq_abs]; congr 1; ring
    have e2 : Real.sqrt (r ^ 2 + D ^ 2 - 2 * r * D * -1) = D + r := by
      rw [show r ^ 2 + D ^ 2 - 2 * r * D * -1 = (D + r) ^ 2 by ring, Real.sqrt_sq (by linarith)]
    rw [e1, e2]; ring
  · apply ContinuousOn.intervalIntegrable
    apply ContinuousOn.mul _ (by fun_prop)
    unfold yukW
    apply ContinuousOn.div (f := fun u : ℝ => Real.exp (-Real.sqrt (r ^ 2 + D ^ 2 - 2 * r * D * u) / l) *
      (1 + Real.sqrt (r ^ 2 + D ^ 2 - 2 * r * D * u) / l)) (g := fun u : ℝ => Real.sqrt (r ^ 2 + D ^ 2 - 2 * r * D * u) ^ 3) (by fun_prop) (by fun_prop)
    intro u hu
    exact pow_ne_zero _ (Real.sqrt_pos.2 (hpos u hu)).ne'

/-- The kernel cut off at small distances. -/
noncomputable def yukCut (l δ s : ℝ) : ℝ := yukW l (max δ s)

theorem yukCut_cont (l : ℝ) {δ : ℝ} (hδ : 0 < δ) : Continuous (yukCut l δ) := by
  unfold yukCut yukW
  refine Continuous.div (by fun_prop) (by fun_prop) fun s => ?_
  exact pow_ne_zero _ (lt_of_lt_of_le hδ (le_max_left δ s)).ne'

theorem yukCut_eq (l : ℝ) {δ s : ℝ} (h : δ ≤ s) : yukCut l δ s = yukW l s := by rw [yukCut, max_eq_right h]

theorem modulus_gap (x y : V3) : |modulus x - modulus y| ≤ modulus (y - x) := by
  have h1 := modulus_add_le (y - x) x
  have h2 := modulus_add_le (x - y) y
  rw [sub_add_cancel] at h1 h2
  rw [modulus_sub_comm x y] at h2
  rw [abs_le]; constructor <;> linarith

/-- The field of the shell through the cut-off kernel. -/
theorem cut_shell (l : ℝ) (hl : l ≠ 0) {r δ : ℝ} (hr : 0 < r) (x : V3) (hδ : 0 < δ) (hgap : δ ≤ |modulus x - r|) (hx : x ≠ 0) (i : Fin 3) :
    ∫ y, yukCut l δ (modulus (y - x)) * (y - x) i ∂shellMu r =
      (yukPhi l r (modulus x) (modulus x + r) - yukPhi l r (modulus x) |modulus x - r|) / (4 * modulus x ^ 3 * r) * x i := by
  have hD0 : modulus x ≠ 0 := fun h => hx ((modulus_eq_zero x).1 h)
  have hD : 0 < modulus x := lt_of_le_of_ne (modulus_nonneg x) (Ne.symm hD0)
  have hne : modulus x ≠ r := fun h => by rw [h, sub_self, abs_zero] at hgap; linarith
  rw [shell_central _ (yukCut_cont l hδ) hr x hx i]
  have e : ∫ u in (-1 : ℝ)..1, yukCut l δ (Real.sqrt (r ^ 2 + modulus x ^ 2 - 2 * r * modulus x * u)) * (r * u - modulus x) =
      ∫ u in (-1 : ℝ)..1, yukW l (Real.sqrt (r ^ 2 + modulus x ^ 2 - 2 * r * modulus x * u)) * (r * u - modulus x) := by
    apply intervalIntegral.integral_congr
    intro u hu
    rw [Set.uIcc_of_le (by norm_num)] at hu
    simp only
    rw [yukCut_eq]
    refine hgap.trans ?_
    apply Real.abs_le_sqrt
    nlinarith [mul_pos hr hD, hu.2]
  rw [e, yuk_u_int l r _ hl hr hD hne]
  field_simp
  ring

theorem phi_outside (l r D : ℝ) (hl : l ≠ 0) (hr : 0 < r) (h : r < D) :
    (yukPhi l r D (D + r) - yukPhi l r D |D - r|) / (4 * D ^ 3 * r) = -(yukShell (r / l) * yukW l D) := by
  have hD : 0 < D := hr.trans h
  have h1 : D - r ≠ 0 := by intro e; linarith
  have h2 : D + r ≠ 0 := by intro e; linarith
  rw [abs_of_pos (by linarith), yukPhi, yukPhi, yukShell, yukW, Real.sinh_eq,
    show -(D + r) / l = -D / l + -(r / l) by ring, show -(D - r) / l = -D / l + r / l by ring, Real.exp_add, Real.exp_add,
    show (D ^ 2 - r ^ 2) / (D + r) = D - r by field_simp; ring, show (D ^ 2 - r ^ 2) / (D - r) = D + r by field_simp; ring]
  field_simp
  ring

theorem phi_inside (l r D : ℝ) (hl : l ≠ 0) (hD : 0 < D) (h : D < r) :
    (yukPhi l r D (D + r) - yukPhi l r D |D - r|) / (4 * D ^ 3 * r) =
      Real.exp (-r / l) / r * (D * Real.cosh (D / l) - l * Real.sinh (D / l)) / D ^ 3 := by
  have hr : 0 < r := hD.trans h
  have h1 : r - D ≠ 0 := by intro e; linarith
  have h2 : D + r ≠ 0 := by intro e; linarith
  rw [abs_of_neg (by linarith), yukPhi, yukPhi, Real.sinh_eq, Real.cosh_eq, neg_sub,
    show -(D + r) / l = -r / l + -(D / l) by ring, show -(r - D) / l = -r / l + D / l by ring, Real.exp_add, Real.exp_add,
    show (D ^ 2 - r ^ 2) / (D + r) = D - r by field_simp; ring, show (D ^ 2 - r ^ 2) / (r - D) = -(D + r) by field_simp; ring]
  field_simp
  ring

/-- The Yukawa field of the shell at a point outside. -/
theorem yuk_shell_outside (l : ℝ) (hl : l ≠ 0) {r : ℝ} (hr : 0 < r) (x : V3) (hx : r < modulus x) (i : Fin 3) :
    ∫ y, yukW l (modulus (y - x)) * (y - x) i ∂shellMu r = -(yukShell (r / l) * yukW l (modulus x) * x i) := by
  have hx0 : x ≠ 0 := fun e => by rw [e, (modulus_eq_zero _).2 rfl] at hx; linarith
  have e : ∫ y, yukW l (modulus (y - x)) * (y - x) i ∂shellMu r = ∫ y, yukCut l (modulus x - r) (modulus (y - x)) * (y - x) i ∂shellMu r := by
    refine integral_congr_ae ?_
    filter_upwards [shell_ae hr.le] with y hy
    rw [yukCut_eq]
    have := modulus_gap x y
    rw [hy] at this
    exact (le_abs_self _).trans this
  rw [e, cut_shell l hl hr x (by linarith) (le_abs_self _) hx0, phi_outside l r _ hl hr hx]
  ring

/-- The Yukawa field of the shell at a point inside. -/
theorem yuk_shell_inside (l : ℝ) (hl : l ≠ 0) {r : ℝ} (x : V3) (hx0 : x ≠ 0) (hx : modulus x < r) (i : Fin 3) :
    ∫ y, yukW l (modulus (y - x)) * (y - x) i ∂shellMu r =
      Real.exp (-r / l) / r * (modulus x * Real.cosh (modulus x / l) - l * Real.sinh (modulus x / l)) / modulus x ^ 3 * x i := by
  have hD0 : modulus x ≠ 0 := fun h => hx0 ((modulus_eq_zero x).1 h)
  have hD : 0 < modulus x := lt_of_le_of_ne (modulus_nonneg x) (Ne.symm hD0)
  have hr : 0 < r := hD.trans hx
  have e : ∫ y, yukW l (modulus (y - x)) * (y - x) i ∂shellMu r = ∫ y, yukCut l (r - modulus x) (modulus (y - x)) * (y - x) i ∂shellMu r := by
    refine integral_congr_ae ?_
    filter_upwards [shell_ae hr.le] with y hy
    rw [yukCut_eq]
    have := modulus_gap x y
    rw [hy] at this
    exact (by rw [abs_sub_comm]; exact le_abs_self _ : r - modulus x ≤ |modulus x - r|).trans this
  rw [e, cut_shell l hl hr x (by linarith) (by rw [abs_sub_comm]; exact le_abs_self _) hx0, phi_inside l r _ hl hD hx]

/-- The Yukawa field of the ball at a point outside. -/
theorem yuk_ball_outside (l : ℝ) (hl : l ≠ 0) {R : ℝ} (hR : 0 < R) (x : V3) (hx : R < modulus x) (i : Fin 3) :
    ∫ y in ball R, yukW l (modulus (y - x)) * (y - x) i = -(4 / 3 * Real.pi * R ^ 3 * yukBall (R / l) * yukW l (modulus x) * x i) := by
  have hx0 : x ≠ 0 := fun e => by rw [e, (modulus_eq_zero _).2 rfl] at hx; linarith
  have hδ : 0 < modulus x - R := by linarith
  have e : ∫ y in ball R, yukW l (modulus (y - x)) * (y - x) i = ∫ y in ball R, yukCut l (modulus x - R) (modulus (y - x)) * (y - x) i := by
    refine setIntegral_congr_fun (ball_compact R).isClosed.measurableSet fun y hy => ?_
    change yukW l (modulus (y - x)) * (y - x) i = yukCut l (modulus x - R) (modulus (y - x)) * (y - x) i
    rw [yukCut_eq]
    have h1 := (le_abs_self _).trans (modulus_gap x y)
    have h2 : modulus y ≤ R := hy
    linarith
  have hc : Continuous fun y : V3 => yukCut l (modulus x - R) (modulus (y - x)) * (y - x) i :=
    ((yukCut_cont l hδ).comp (modulus_continuous.comp (continuous_id.sub continuous_const))).mul
      ((continuous_apply i).comp (continuous_id.sub continuous_const))
  rw [e, ball_shells hR.le _ hc]
  have e2 : ∫ r in (0 : ℝ)..R, 4 * Real.pi * r ^ 2 * ∫ v, yukCut l (modulus x - R) (modulus (v - x)) * (v - x) i ∂shellMu r =
      ∫ r in (0 : ℝ)..R, -(4 * Real.pi * l * yukW l (modulus x) * x i) * (r * Real.sinh (r / l)) := by
    apply intervalIntegral.integral_congr
    intro r hr
    rw [Set.uIcc_of_le hR.le] at hr
    simp only
    rcases hr.1.eq_or_lt with h0 | h0
    · rw [← h0]; simp
    · rw [cut_shell l hl h0 x hδ ((by linarith [hr.2] : modulus x - R ≤ modulus x - r).trans (le_abs_self _)) hx0,
        phi_outside l r _ hl h0 (lt_of_le_of_lt hr.2 hx), yukShell]
      field_simp
  have d : ∀ r ∈ Set.uIcc (0 : ℝ) R, HasDerivAt (fun r : ℝ => l * (r * Real.cosh (r / l)) - l ^ 2 * Real.sinh (r / l)) (r * Real.sinh (r / l)) r := by
    intro r _
    have hdl : HasDerivAt (fun r : ℝ => r / l) (1 / l) r := (hasDerivAt_id r).div_const l
    have h1 := ((hasDerivAt_id r).mul hdl.cosh).const_mul l
    have h2 := hdl.sinh.const_mul (l ^ 2)
    refine (h1.sub h2).congr_deriv ?_
    change l * (1 * Real.cosh (r / l) + r * (Real.sinh (r / l) * (1 / l))) - l ^ 2 * (Real.cosh (r / l) * (1 / l)) = _
    generalize Real.cosh (r / l) = a
    generalize Real.sinh (r / l) = b
    field_simp
    ring
  rw [e2, intervalIntegral.integral_const_mul, intervalIntegral.integral_eq_sub_of_hasDerivAt d
    ((by fun_prop : Continuous fun r : ℝ => r * Real.sinh (r / l)).intervalIntegrable 0 R), yukBall]
  simp only [zero_div, Real.sinh_zero, zero_mul, mul_zero, sub_zero]
  field_simp

end Newt
