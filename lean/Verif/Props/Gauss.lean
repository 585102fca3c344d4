import Verif.Props.Field

/-!
# C122: Gauss's law and Earnshaw's theorem
-/

namespace Newt

open Spec MeasureTheory

/-- The potential of the shell at a point outside. -/
theorem shell_pot_outside {r : ℝ} (hr : 0 ≤ r) {x : V3} (hx : r < modulus x) : ∫ y, 1 / modulus (x - y) ∂shellMu r = 1 / modulus x := by
  have h := (C89_moments_determine (fun l m hm => shell_inner 1 r l m hm) hr hx (shell_inBall 1 hr)
    (by
      have := points_single_inBall 1 (0 : V3)
      rw [(modulus_eq_zero 0).2 rfl] at this
      intro p hp
      refine measure_mono_null ?_ (this p hp)
      intro v hv
      exact lt_of_le_of_lt hr hv) (points_single_offBall 1 x)).1
  have e1 : (Body.shell 1 r).energy BIG_G (Body.points [⟨1, x⟩]) = -BIG_G * ∫ y, 1 / modulus (x - y) ∂shellMu r := by
    simp [Body.energy, Body.points, Piece.point, Body.shell, shellMu]
  have e2 : (Body.points [⟨1, (0 : V3)⟩]).energy BIG_G (Body.points [⟨1, x⟩]) = -BIG_G * (1 / modulus x) := by
    simp [Body.energy, Body.points, Piece.point]
  rw [e1, e2] at h
  exact mul_left_cancel₀ (by norm_num [BIG_G] : -BIG_G ≠ 0) h

theorem modulus_dot (v : V3) : modulus v ^ 2 = v ⬝ᵥ v := by
  rw [modulus, Real.sq_sqrt (by positivity)]; simp [dotProduct, Fin.sum_univ_three]; ring

/-- The potential of the shell inside is constant (by inversion in the sphere). -/
theorem shell_pot_inside {r : ℝ} (hr : 0 < r) {x : V3} (hx : modulus x < r) : ∫ y, 1 / modulus (x - y) ∂shellMu r = 1 / r := by
  by_cases hx0 : x = 0
  · subst hx0
    have e : ∫ y, 1 / modulus (0 - y) ∂shellMu r = ∫ _, 1 / r ∂shellMu r := by
      refine integral_congr_ae ?_
      filter_upwards [shell_ae hr.le] with y hy
      rw [zero_sub, modulus_neg, hy]
    rw [e, integral_const, Measure.real, shellMu_univ]
    simp
  have hm : 0 < modulus x := modulus_pos hx0
  set k := r ^ 2 / modulus x ^ 2 with hk
  have hmk : modulus (k • x) = r ^ 2 / modulus x := by
    rw [modulus_smul, abs_of_pos (by positivity), hk]; field_simp
  have hout := shell_pot_outside hr.le (x := k • x) (by
    rw [hmk, lt_div_iff₀ hm]; nlinarith)
  have e : ∫ y, 1 / modulus (x - y) ∂shellMu r = ∫ y, r / modulus x * (1 / modulus (k • x - y)) ∂shellMu r := by
    refine integral_congr_ae ?_
    filter_upwards [shell_ae hr.le] with y hy
    have key : modulus (k • x - y) = r / modulus x * modulus (x - y) := by
      have h2 : modulus (k • x - y) ^ 2 = (r / modulus x * modulus (x - y)) ^ 2 := by
        rw [mul_pow, modulus_dot, modulus_dot]
        simp only [sub_dotProduct, dotProduct_sub, smul_dotProduct, dotProduct_smul, smul_eq_mul, dotProduct_comm y x]
        rw [← modulus_dot, ← modulus_dot, hy, hk]
        field_simp
        ring
      exact (pow_left_inj₀ (modulus_nonneg _) (mul_nonneg (by positivity) (modulus_nonneg _)) (by norm_num)).1 h2
    rw [key]
    by_cases hxy : modulus (x - y) = 0
    · exfalso
      have : x = y := sub_eq_zero.1 ((modulus_eq_zero _).1 hxy)
      rw [this, hy] at hx
      exact lt_irrefl _ hx
    · field_simp
  rw [e, integral_const_mul, hout, hmk]
  field_simp

theorem shell_integrable {r : ℝ} (hr : 0 ≤ r) (f : V3 → ℝ) (hf : ContinuousOn f {v | modulus v = r}) : Integrable f (shellMu r) := by
  have hK : IsCompact {v : V3 | modulus v = r} :=
    (ball_compact r).of_isClosed_subset (isClosed_eq modulus_continuous continuous_const) fun v hv => le_of_eq hv
  have hfin : IsFiniteMeasure (shellMu r) := ⟨by rw [shellMu_univ]; simp⟩
  have hres : (shellMu r).restrict {v : V3 | modulus v = r} = shellMu r := Measure.restrict_eq_self_of_ae_mem (shell_ae hr)
  rw [← hres]
  exact hf.integrableOn_compact hK

theorem sub_ne_on {r : ℝ} {x y : V3} (hx : modulus x ≠ r) (hy : modulus y = r) : modulus (x - y) ≠ 0 := fun h => hx (by
  have : x = y := sub_eq_zero.1 ((modulus_eq_zero _).1 h)
  rw [this]; exact hy)

/-- The outward attraction of one point, averaged over the sphere. -/
theorem shell_outward {r : ℝ} (hr : 0 < r) {x : V3} (hx : modulus x ≠ r) :
    ∫ y, (x - y) ⬝ᵥ y / modulus (x - y) ^ 3 ∂shellMu r = if modulus x < r then -(1 / r) else 0 := by
  have hc : ∀ i, Integrable (fun y : V3 => (y - x) i / modulus (y - x) ^ 3) (shellMu r) := shell_field_integrable hr.le hx
  have hp : Integrable (fun y : V3 => 1 / modulus (x - y)) (shellMu r) := by
    refine shell_integrable hr.le _ ?_
    exact continuousOn_const.div (modulus_continuous.comp (continuous_const.sub continuous_id)).continuousOn fun y hy => sub_ne_on hx hy
  have e : ∫ y, (x - y) ⬝ᵥ y / modulus (x - y) ^ 3 ∂shellMu r =
      ∫ y, ((-x 0 * ((y - x) 0 / modulus (y - x) ^ 3) + -x 1 * ((y - x) 1 / modulus (y - x) ^ 3) + -x 2 * ((y - x) 2 / modulus (y - x) ^ 3)) - 1 / modulus (x - y)) ∂shellMu r := by
    refine integral_congr_ae ?_
    filter_upwards [shell_ae hr.le] with y hy
    have hne := sub_ne_on hx hy
    have h2 : (x - y) ⬝ᵥ y = -(x ⬝ᵥ (y - x)) - modulus (x - y) ^ 2 := by
      rw [modulus_dot]
      simp only [sub_dotProduct, dotProduct_sub, dotProduct_comm y x]
      ring
    rw [h2, modulus_sub_comm y x]
    simp only [dotProduct, Fin.sum_univ_three]
    field_simp
    ring
  have i0 := (hc 0).const_mul (-x 0)
  have i1 := (hc 1).const_mul (-x 1)
  have i2 := (hc 2).const_mul (-x 2)
  have i01 : Integrable (fun y : V3 => -x 0 * ((y - x) 0 / modulus (y - x) ^ 3) + -x 1 * ((y - x) 1 / modulus (y - x) ^ 3)) (shellMu r) := i0.add i1
  have i012 : Integrable (fun y : V3 => -x 0 * ((y - x) 0 / modulus (y - x) ^ 3) + -x 1 * ((y - x) 1 / modulus (y - x) ^ 3) + -x 2 * ((y - x) 2 / modulus (y - x) ^ 3)) (shellMu r) := i01.add i2
  rw [e, integral_sub i012 hp, integral_add i01 i2, integral_add i0 i1, integral_const_mul, integral_const_mul, integral_const_mul]
  split_ifs with h
  · rw [shell_field_inside h, shell_field_inside h, shell_field_inside h, shell_pot_inside hr h]; ring
  · have h' : r < modulus x := lt_of_le_of_ne (not_lt.1 h) (Ne.symm hx)
    have hm : modulus x ≠ 0 := by linarith
    rw [shell_field_outside hr.le h', shell_field_outside hr.le h', shell_field_outside hr.le h', shell_pot_outside hr.le h']
    have := modulus_dot x
    simp only [dotProduct, Fin.sum_univ_three] at this
    field_simp
    linarith

theorem box_shell (r : ℝ) (f : V3 → ℝ) (hf : Measurable f) : ∫ p in shellBox, f (shellMap r p) = 4 * Real.pi * ∫ v, f v ∂shellMu r := by
  have hpi := Real.pi_pos
  rw [shellMu, integral_smul_measure, integral_map (continuous_shellMap r).aemeasurable hf.aestronglyMeasurable, ENNReal.toReal_inv,
    ENNReal.toReal_ofReal (by positivity), smul_eq_mul]
  field_simp

theorem measurable_modulus : Measurable modulus := modulus_continuous.measurable

theorem list_integral {α : Type*} (μ : Measure V3) (f : α → V3 → ℝ) :
    ∀ l : List α, (∀ a ∈ l, Integrable (f a) μ) → (∀ a ∈ l, Measurable (f a)) →
      Integrable (fun y => (l.map fun a => f a y).sum) μ ∧ Measurable (fun y => (l.map fun a => f a y).sum) ∧
        ∫ y, (l.map fun a => f a y).sum ∂μ = (l.map fun a => ∫ y, f a y ∂μ).sum
  | [], _, _ => by simp
  | a :: l, h, h' => by
    obtain ⟨h1, h2, h3⟩ := list_integral μ f l (fun b hb => h b (by simp [hb])) fun b hb => h' b (by simp [hb])
    simp only [List.map_cons, List.sum_cons]
    exact ⟨(h a (by simp)).add h1, (h' a (by simp)).add h2, by rw [integral_add (h a (by simp)) h1, h3]⟩

/-- C122, Gauss's law: the flux of the force on a mass `m` through any sphere that passes through no point of the array is `-4 pi G m` times the mass
enclosed, wherever the points are inside and whatever lies outside. -/
theorem C122_gauss (m : ℝ) (B : PtArray) (c : V3) (R : ℝ) (hR : 0 < R) (hB : ∀ b ∈ B, dist3 c b.pos ≠ R) :
    ∃ F : V3 → V3, (∀ y, dist3 c y = R → gmmr2_array ⟨m, y⟩ B = some (F y)) ∧ sphereFlux F c R = -(4 * Real.pi * BIG_G * m * enclosed B c R) := by
  have hd : ∀ y, dist3 c y = modulus (y - c) := fun y => by
    rw [dist3_eq_sqrt, sqd_eq, Real.sqrt_sq (modulus_nonneg _)]
  refine ⟨fun y => (B.map fun b => gW ⟨m, y⟩ b • (b.pos - y)).sum, fun y hy => gmmr2_array_some fun b hb e => hB b hb (by
    simp only at e; rw [← e]; exact hy), ?_⟩
  set f : Pt → V3 → ℝ := fun b y => BIG_G * m * b.mass * ((b.pos - c - y) ⬝ᵥ y / modulus (b.pos - c - y) ^ 3) with hf
  have e1 : ∀ p : ℝ × ℝ, (B.map fun b => gW ⟨m, c + shellMap R p⟩ b • (b.pos - (c + shellMap R p))).sum ⬝ᵥ shellMap 1 p =
      R⁻¹ * (B.map fun b => f b (shellMap R p)).sum := by
    intro p
    have es : shellMap 1 p = R⁻¹ • shellMap R p := by
      funext i; fin_cases i <;> simp [shellMap] <;> field_simp
    rw [es, dotProduct_smul, smul_eq_mul, dotProduct_comm, dot_list_sum, List.map_map]
    congr 2
    refine List.map_congr_left fun b _ => ?_
    simp only [Function.comp, gW, hf, dotProduct_smul, smul_eq_mul, sub_add_eq_sub_sub]
    rw [dotProduct_comm]
    ring
  have hmeas : ∀ b ∈ B, Measurable (f b) := by
    intro b _
    have h1 : Measurable fun y : V3 => b.pos - c - y := by fun_prop
    have h2 : Measurable fun y : V3 => (b.pos - c - y) ⬝ᵥ y := by
      simp only [dotProduct, Fin.sum_univ_three, Pi.sub_apply]; fun_prop
    exact ((h2.div ((measurable_modulus.comp h1).pow_const 3)).const_mul _)
  have hint : ∀ b ∈ B, Integrable (f b) (shellMu R) := by
    intro b hb
    have hx : modulus (b.pos - c) ≠ R := by rw [← hd]; exact hB b hb
    refine (shell_integrable hR.le _ ?_).const_mul _
    have h2 : Continuous fun y : V3 => (b.pos - c - y) ⬝ᵥ y := by
      simp only [dotProduct, Fin.sum_univ_three, Pi.sub_apply]; fun_prop
    exact h2.continuousOn.div ((modulus_continuous.comp (continuous_const.sub continuous_id)).pow 3).continuousOn fun y hy => pow_ne_zero _ (sub_ne_on hx hy)
  obtain ⟨-, hm, hs⟩ := list_integral (shellMu R) f B hint hmeas
  rw [sphereFlux]
  simp only [e1]
  rw [integral_const_mul, box_shell R _ hm, hs]
  have e2 : (B.map fun b => ∫ y, f b y ∂shellMu R) = B.map fun b => -(BIG_G * m / R) * if dist3 c b.pos < R then b.mass else 0 := by
    refine List.map_congr_left fun b hb => ?_
    rw [hf]
    simp only
    rw [integral_const_mul, shell_outward hR (by rw [← hd]; exact hB b hb), ← hd]
    split_ifs <;> field_simp <;> simp
  rw [e2, List.sum_map_mul_left, enclosed]
  field_simp

theorem dist3_translate (d : V3) (a b : Pt) : dist3 (translate_point d a).pos b.pos = modulus (b.pos - a.pos - d) := by
  rw [dist3_eq_sqrt, sqd_eq, Real.sqrt_sq (modulus_nonneg _)]
  simp only [translate_point, sub_add_eq_sub_sub]

theorem mean_aux (A B : PtArray) (R : ℝ) (hR : 0 ≤ R) (h : ∀ a ∈ A, ∀ b ∈ B, R < dist3 a.pos b.pos) :
    Integrable (fun d => newtonEnergy (translate_point_array A d) B) (shellMu R) ∧ Measurable (fun d => newtonEnergy (translate_point_array A d) B) ∧
      ∫ d, newtonEnergy (translate_point_array A d) B ∂shellMu R = newtonEnergy A B := by
  have hd : ∀ a b : Pt, dist3 a.pos b.pos = modulus (b.pos - a.pos) := fun a b => by
    rw [dist3_eq_sqrt, sqd_eq, Real.sqrt_sq (modulus_nonneg _)]
  set g : Pt → Pt → V3 → ℝ := fun a b d => -(BIG_G * a.mass * b.mass) * (1 / modulus (b.pos - a.pos - d)) with hg
  have eE : ∀ d, newtonEnergy (translate_point_array A d) B = (A.map fun a => (B.map fun b => g a b d).sum).sum := by
    intro d
    rw [newtonEnergy, translate_point_array, List.map_map]
    congr 1
    refine List.map_congr_left fun a _ => ?_
    simp only [Function.comp, dist3_translate, hg]
    congr 1
    refine List.map_congr_left fun b _ => ?_
    simp only [translate_point]
    ring
  have hm : ∀ a b, Measurable (g a b) := fun a b =>
    ((measurable_modulus.comp (measurable_const.sub measurable_id)).const_div 1).const_mul _
  have hI : ∀ a ∈ A, ∀ b ∈ B, Integrable (g a b) (shellMu R) := by
    intro a ha b hb
    have hx : modulus (b.pos - a.pos) ≠ R := by rw [← hd]; exact (h a ha b hb).ne'
    refine (shell_integrable hR _ ?_).const_mul _
    exact continuousOn_const.div (modulus_continuous.comp (continuous_const.sub continuous_id)).continuousOn fun y hy => sub_ne_on hx hy
  have inner := fun a ha => list_integral (shellMu R) (g a) B (hI a ha) fun b _ => hm a b
  have outer := list_integral (shellMu R) (fun a d => (B.map fun b => g a b d).sum) A (fun a ha => (inner a ha).1) fun a ha => (inner a ha).2.1
  simp only [eE]
  refine ⟨outer.1, outer.2.1, ?_⟩
  rw [outer.2.2, newtonEnergy]
  congr 1
  refine List.map_congr_left fun a ha => ?_
  rw [(inner a ha).2.2]
  congr 1
  refine List.map_congr_left fun b hb => ?_
  rw [hg]
  simp only
  rw [integral_const_mul, shell_pot_outside hR (by rw [← hd]; exact h a ha b hb), hd]
  ring

/-- C122: the energy, averaged over all displacements of the first body by the same distance `R`, is the energy without displacement, as long as no
point can reach one of the other body. -/
theorem C122_mean (A B : PtArray) (R : ℝ) (hR : 0 ≤ R) (h : ∀ a ∈ A, ∀ b ∈ B, R < dist3 a.pos b.pos) :
    1 / (4 * Real.pi) * ∫ p in shellBox, newtonEnergy (translate_point_array A (shellMap R p)) B = newtonEnergy A B := by
  have hpi := Real.pi_pos
  obtain ⟨-, hm, e⟩ := mean_aux A B R hR h
  rw [box_shell R _ hm, e]
  field_simp

/-- C122, Earnshaw's theorem: no body is held in stable equilibrium by the gravity of another one.  At every distance `R` smaller than the gap between
them there is a displacement that does not raise the energy (and one that does not lower it). -/
theorem C122_earnshaw (A B : PtArray) (R : ℝ) (hR : 0 ≤ R) (h : ∀ a ∈ A, ∀ b ∈ B, R < dist3 a.pos b.pos) :
    (∃ d, modulus d = R ∧ newtonEnergy (translate_point_array A d) B ≤ newtonEnergy A B) ∧
      ∃ d, modulus d = R ∧ newtonEnergy A B ≤ newtonEnergy (translate_point_array A d) B := by
  obtain ⟨hI, -, e⟩ := mean_aux A B R hR h
  have hprob : IsProbabilityMeasure (shellMu R) := ⟨shellMu_univ R⟩
  have hz : ∫ d, (newtonEnergy (translate_point_array A d) B - newtonEnergy A B) ∂shellMu R = 0 := by
    rw [integral_sub hI (integrable_const _), e]; simp
  have hae : ∀ᵐ d ∂shellMu R, modulus d = R := shell_ae hR
  have hne : ∀ P : V3 → Prop, (∀ᵐ d ∂shellMu R, P d) → ∃ d, modulus d = R ∧ P d := fun P hP =>
    (hae.and hP).exists
  constructor
  · by_contra hno
    push Not at hno
    have h0 : 0 ≤ᵐ[shellMu R] fun d => newtonEnergy (translate_point_array A d) B - newtonEnergy A B := by
      filter_upwards [hae] with d hd
      exact sub_nonneg.2 (hno d hd).le
    rw [integral_eq_zero_iff_of_nonneg_ae h0 (hI.sub (integrable_const _))] at hz
    obtain ⟨d, hd, he⟩ := hne _ hz
    have := hno d hd
    simp only [Pi.zero_apply] at he
    linarith
  · by_contra hno
    push Not at hno
    have h0 : 0 ≤ᵐ[shellMu R] fun d => newtonEnergy A B - newtonEnergy (translate_point_array A d) B := by
      filter_upwards [hae] with d hd
      exact sub_nonneg.2 (hno d hd).le
    have hz' : ∫ d, (newtonEnergy A B - newtonEnergy (translate_point_array A d) B) ∂shellMu R = 0 := by
      rw [integral_sub (integrable_const _) hI, e]; simp
    rw [integral_eq_zero_iff_of_nonneg_ae h0 ((integrable_const _).sub hI)] at hz'
    obtain ⟨d, hd, he⟩ := hne _ hz'
    have := hno d hd
    simp only [Pi.zero_apply] at he
    linarith

/-- Instance: a sphere around two of three points. -/
example : ∃ F : V3 → V3, (∀ y, dist3 0 y = 2 → gmmr2_array ⟨1, y⟩ [⟨3, ![1, 0, 0]⟩, ⟨4, ![0, -1, 0]⟩, ⟨5, ![0, 0, 7]⟩] = some (F y)) ∧
    sphereFlux F 0 2 = -(4 * Real.pi * BIG_G * 1 * 7) := by
  have d1 : dist3 0 ![1, 0, 0] = 1 := by simp [dist3, Fin.sum_univ_three]
  have d2 : dist3 0 ![0, -1, 0] = 1 := by simp [dist3, Fin.sum_univ_three]
  have d3 : dist3 0 ![0, 0, 7] = 7 := by simp [dist3, Fin.sum_univ_three]
  obtain ⟨F, h1, h2⟩ := C122_gauss 1 [⟨3, ![1, 0, 0]⟩, ⟨4, ![0, -1, 0]⟩, ⟨5, ![0, 0, 7]⟩] 0 2 (by norm_num) (by
    intro b hb
    simp only [List.mem_cons, List.not_mem_nil, or_false] at hb
    rcases hb with rfl | rfl | rfl
    · rw [d1]; norm_num
    · rw [d2]; norm_num
    · rw [d3]; norm_num)
  refine ⟨F, h1, ?_⟩
  rw [h2]
  simp only [enclosed, List.map_cons, List.map_nil, List.sum_cons, List.sum_nil, d1, d2, d3]
  norm_num

/-- Instance: a point halfway between two equal masses (where the force vanishes) is not held there. -/
example : ∃ d, modulus d = 1 / 2 ∧ newtonEnergy (translate_point_array [⟨1, 0⟩] d) [⟨3, ![1, 0, 0]⟩, ⟨3, ![-1, 0, 0]⟩] ≤ newtonEnergy [⟨1, 0⟩] [⟨3, ![1, 0, 0]⟩, ⟨3, ![-1, 0, 0]⟩] := by
  refine (C122_earnshaw _ _ (1 / 2) (by norm_num) ?_).1
  intro a ha b hb
  simp only [List.mem_cons, List.not_mem_nil, or_false] at ha hb
  subst ha
  rcases hb with rfl | rfl <;> simp [dist3, Fin.sum_univ_three] <;> norm_num

end Newt
