import Verif.Spec.Field
import Verif.Props.GlibPotential
import Verif.Proofs.ShellTheorem

/-!
# C121: the field of a point array is conservative and source-free
-/

namespace Newt

open Spec Filter Topology

theorem pair_jac (W : ℝ → ℝ) (W' : ℝ) (x b : V3) (h : HasDerivAt W W' (sqd x b)) (i : Fin 3) :
    HasFDerivAt (fun y : V3 => W (sqd y b) * (b i - y i)) (dotL fun j => (if i = j then -W (sqd x b) else 0) + 2 * W' * (b i - x i) * (x j - b j)) x := by
  have h1 : HasFDerivAt (fun y : V3 => W (sqd y b)) (W' • dotL ((2 : ℝ) • (x - b))) x := h.comp_hasFDerivAt x (hasFDerivAt_sqd x b)
  have h2 : HasFDerivAt (fun y : V3 => b i - y i) (-(ContinuousLinearMap.proj i : V3 →L[ℝ] ℝ)) x :=
    ((ContinuousLinearMap.proj i : V3 →L[ℝ] ℝ).hasFDerivAt).const_sub (b i)
  refine (h1.mul h2).congr_fderiv ?_
  ext v
  simp only [dotL_apply, add_apply, smul_apply, neg_apply, ContinuousLinearMap.proj_apply, smul_eq_mul,
    dotProduct, Fin.sum_univ_three, Pi.smul_apply, Pi.sub_apply]
  fin_cases i <;> simp <;> ring

theorem fderiv_list {α : Type*} (f : α → V3 → ℝ) (f' : α → V3) (x : V3) :
    ∀ l : List α, (∀ a ∈ l, HasFDerivAt (f a) (dotL (f' a)) x) → HasFDerivAt (fun y => (l.map fun a => f a y).sum) (dotL (l.map f').sum) x
  | [], _ => by
    simp only [List.map_nil, List.sum_nil]
    refine (hasFDerivAt_const (0 : ℝ) x).congr_fderiv ?_
    ext v; simp
  | a :: l, h => by
    simp only [List.map_cons, List.sum_cons]
    rw [dotL_add]
    exact (h a (by simp)).add (fderiv_list f f' x l fun b hb => h b (by simp [hb]))

theorem list_sum_apply (l : List V3) (i : Fin 3) : l.sum i = (l.map fun v => v i).sum := by
  induction l with
  | nil => simp
  | cons v l ih => simp [ih]

theorem gW_sqd (m : ℝ) (y : V3) (b : Pt) : gW ⟨m, y⟩ b = BIG_G * m * b.mass / Real.sqrt (sqd y b.pos) ^ 3 := by
  rw [gW, sqd_eq, Real.sqrt_sq (modulus_nonneg _)]

theorem hasDerivAt_sqrt_cube (c s : ℝ) (hs : 0 < s) : HasDerivAt (fun t => c / Real.sqrt t ^ 3) (-(3 / 2) * c / Real.sqrt s ^ 5) s := by
  have hq := Real.sqrt_pos.2 hs
  have h := ((Real.hasDerivAt_sqrt hs.ne').pow 3).inv (pow_pos hq 3).ne'
  have h2 := h.const_mul c
  refine (h2.congr_deriv ?_).congr_of_eventuallyEq (Eventually.of_forall fun t => ?_)
  · simp only [Pi.pow_apply]
    field_simp
    try ring
  · simp [div_eq_mul_inv]

/-- C121: the force on a point mass is a differentiable function of its position wherever it is defined, and its derivative is the gravity gradient:
symmetric (the field has no curl) and traceless (it has no sources in empty space). -/
theorem C121_gradient (m : ℝ) (B : PtArray) :
    ∃ F : V3 → V3, (∀ y, (∀ b ∈ B, y ≠ b.pos) → gmmr2_array ⟨m, y⟩ B = some (F y)) ∧
      ∀ x, (∀ b ∈ B, x ≠ b.pos) → (∀ i, HasFDerivAt (fun y => F y i) (dotL (tidal m B x i)) x) ∧
        (∀ i j, tidal m B x i j = tidal m B x j i) ∧ ∑ i, tidal m B x i i = 0 := by
  refine ⟨fun y => (B.map fun b => gW ⟨m, y⟩ b • (b.pos - y)).sum, fun y hy => gmmr2_array_some hy, fun x hx => ⟨fun i => ?_, fun i j => ?_, ?_⟩⟩
  · have h := fderiv_list (fun (b : Pt) y => BIG_G * m * b.mass / Real.sqrt (sqd y b.pos) ^ 3 * (b.pos i - y i)) _ x B
      fun b hb => pair_jac _ _ x b.pos (hasDerivAt_sqrt_cube (BIG_G * m * b.mass) _ (sqd_pos (hx b hb))) i
    have e : (fun y => ((B.map fun b => gW ⟨m, y⟩ b • (b.pos - y)).sum) i) = fun y =>
        (B.map fun (b : Pt) => BIG_G * m * b.mass / Real.sqrt (sqd y b.pos) ^ 3 * (b.pos i - y i)).sum := by
      funext y
      rw [list_sum_apply, List.map_map]
      congr 1
      refine List.map_congr_left fun b _ => ?_
      simp only [Function.comp, Pi.smul_apply, smul_eq_mul, Pi.sub_apply, gW_sqd]
    rw [e]
    convert h using 1
    congr 1
    funext j
    rw [list_sum_apply, List.map_map, tidal]
    congr 1
    refine List.map_congr_left fun b hb => ?_
    have hq : Real.sqrt (sqd x b.pos) ≠ 0 := (Real.sqrt_pos.2 (sqd_pos (hx b hb))).ne'
    simp only [Function.comp, dist3_eq_sqrt]
    split_ifs
    · field_simp
      ring
    · field_simp
      ring
  · rw [tidal, tidal]
    congr 1
    refine List.map_congr_left fun b _ => ?_
    have : (if i = j then (1 : ℝ) else 0) = if j = i then 1 else 0 := by simp only [eq_comm]
    rw [this]; ring
  · simp only [tidal, Fin.sum_univ_three]
    rw [← List.sum_map_add, ← List.sum_map_add]
    refine List.sum_eq_zero fun t ht => ?_
    obtain ⟨b, hb, rfl⟩ := List.mem_map.1 ht
    have hs := sqd_pos (hx b hb)
    have hq : Real.sqrt (sqd x b.pos) ≠ 0 := (Real.sqrt_pos.2 hs).ne'
    have e : Real.sqrt (sqd x b.pos) ^ 2 = (b.pos 0 - x 0) ^ 2 + (b.pos 1 - x 1) ^ 2 + (b.pos 2 - x 2) ^ 2 := by
      rw [Real.sq_sqrt hs.le, sqd]; simp [Fin.sum_univ_three]; ring
    simp only [dist3_eq_sqrt, if_true]
    field_simp
    rw [e]
    ring

/-! ## Yukawa -/

/-- The derivative of the Yukawa weight with respect to the squared distance. -/
theorem hasDerivAt_yuk_weight (c l s : ℝ) (hl : l ≠ 0) (hs : 0 < s) :
    HasDerivAt (fun t => c * Real.exp (-Real.sqrt t / l) * (1 / Real.sqrt t ^ 3 + 1 / (Real.sqrt t ^ 2 * l)))
      (-(c * Real.exp (-Real.sqrt s / l) / 2 * (3 / Real.sqrt s ^ 5 + 3 / (l * Real.sqrt s ^ 4) + 1 / (l ^ 2 * Real.sqrt s ^ 3)))) s := by
  have hq := Real.sqrt_pos.2 hs
  have hd := Real.hasDerivAt_sqrt hs.ne'
  have h1 := (hd.neg.div_const l).exp.const_mul c
  have h2 := ((hd.pow 3).inv (pow_pos hq 3).ne').add (((hd.pow 2).mul_const l).inv (mul_ne_zero (pow_pos hq 2).ne' hl))
  refine ((h1.mul h2).congr_deriv ?_).congr_of_eventuallyEq (Eventually.of_forall fun t => ?_)
  · simp only [Pi.pow_apply, Pi.neg_apply, Pi.add_apply, Pi.inv_apply]
    field_simp
    try ring
  · simp [div_eq_mul_inv]

theorem yW_sqd (alpha l m : ℝ) (y : V3) (b : Pt) (h : y ≠ b.pos) : yW alpha l ⟨m, y⟩ b =
    alpha * BIG_G * m * b.mass * Real.exp (-Real.sqrt (sqd y b.pos) / l) * (1 / Real.sqrt (sqd y b.pos) ^ 3 + 1 / (Real.sqrt (sqd y b.pos) ^ 2 * l)) := by
  have hm : modulus (b.pos - y) ≠ 0 := (modulus_pos (sub_ne_zero.2 h.symm)).ne'
  rw [yW, sqd_eq, Real.sqrt_sq (modulus_nonneg _)]

/-- C121: the Yukawa force is differentiable too; its gradient is symmetric, and its divergence is the energy over the squared range with
the opposite sign: the screened Poisson equation. -/
theorem C121_yukawa_gradient (alpha l m : ℝ) (hl : l ≠ 0) (B : PtArray) :
    ∃ F : V3 → V3, (∀ y, (∀ b ∈ B, y ≠ b.pos) → yukawa_array ⟨m, y⟩ B alpha l = some (F y)) ∧
      ∀ x, (∀ b ∈ B, x ≠ b.pos) → (∀ i, HasFDerivAt (fun y => F y i) (dotL (yukTidal alpha l m B x i)) x) ∧
        (∀ i j, yukTidal alpha l m B x i j = yukTidal alpha l m B x j i) ∧ ∑ i, yukTidal alpha l m B x i i = -yukawaEnergy alpha l [⟨m, x⟩] B / l ^ 2 := by
  refine ⟨fun y => (B.map fun b => yW alpha l ⟨m, y⟩ b • (b.pos - y)).sum, fun y hy => yukawa_array_some hl hy, fun x hx => ⟨fun i => ?_, fun i j => ?_, ?_⟩⟩
  · have h := fderiv_list (fun (b : Pt) y => alpha * BIG_G * m * b.mass * Real.exp (-Real.sqrt (sqd y b.pos) / l) * (1 / Real.sqrt (sqd y b.pos) ^ 3 + 1 / (Real.sqrt (sqd y b.pos) ^ 2 * l)) * (b.pos i - y i)) _ x B
      fun b hb => pair_jac _ _ x b.pos (hasDerivAt_yuk_weight (alpha * BIG_G * m * b.mass) l _ hl (sqd_pos (hx b hb))) i
    have e : (fun y => ((B.map fun b => yW alpha l ⟨m, y⟩ b • (b.pos - y)).sum) i) =ᶠ[𝓝 x] fun y =>
        (B.map fun (b : Pt) => alpha * BIG_G * m * b.mass * Real.exp (-Real.sqrt (sqd y b.pos) / l) * (1 / Real.sqrt (sqd y b.pos) ^ 3 + 1 / (Real.sqrt (sqd y b.pos) ^ 2 * l)) * (b.pos i - y i)).sum := by
      have hev : ∀ᶠ y in 𝓝 x, ∀ b ∈ B, y ≠ b.pos := by
        refine (Filter.eventually_all_finite B.finite_toSet).2 ?_
        exact fun b hb => (continuous_id.continuousAt).eventually_ne (hx b hb)
      filter_upwards [hev] with y hy
      rw [list_sum_apply, List.map_map]
      congr 1
      refine List.map_congr_left fun b hb => ?_
      simp only [Function.comp, Pi.smul_apply, smul_eq_mul, Pi.sub_apply, yW_sqd alpha l m y b (hy b hb)]
    refine HasFDerivAt.congr_of_eventuallyEq ?_ e
    convert h using 1
    congr 1
    funext j
    rw [list_sum_apply, List.map_map, yukTidal]
    congr 1
    refine List.map_congr_left fun b hb => ?_
    have hq : Real.sqrt (sqd x b.pos) ≠ 0 := (Real.sqrt_pos.2 (sqd_pos (hx b hb))).ne'
    simp only [Function.comp, dist3_eq_sqrt]
    split_ifs
    · field_simp
      ring
    · field_simp
      ring
  · rw [yukTidal, yukTidal]
    congr 1
    refine List.map_congr_left fun b _ => ?_
    have : (if i = j then (1 : ℝ) else 0) = if j = i then 1 else 0 := by simp only [eq_comm]
    rw [this]; ring
  · simp only [yukTidal, Fin.sum_univ_three, yukawaEnergy, List.map_cons, List.map_nil, List.sum_cons, List.sum_nil, add_zero]
    rw [← List.sum_map_add, ← List.sum_map_add, neg_div, div_eq_inv_mul, ← neg_mul, ← List.sum_map_mul_left]
    congr 1
    refine List.map_congr_left fun b hb => ?_
    have hs := sqd_pos (hx b hb)
    have hq : Real.sqrt (sqd x b.pos) ≠ 0 := (Real.sqrt_pos.2 hs).ne'
    have e : Real.sqrt (sqd x b.pos) ^ 2 = (b.pos 0 - x 0) ^ 2 + (b.pos 1 - x 1) ^ 2 + (b.pos 2 - x 2) ^ 2 := by
      rw [Real.sq_sqrt hs.le, sqd]; simp [Fin.sum_univ_three]; ring
    simp only [dist3_eq_sqrt, if_true]
    generalize Real.exp (-Real.sqrt (sqd x b.pos) / l) = E
    set r := Real.sqrt (sqd x b.pos) with hr
    have e3 : ((3 / r ^ 5 + 3 / (l * r ^ 4) + 1 / (l ^ 2 * r ^ 3)) * r ^ 2 - 3 * (1 / r ^ 3 + 1 / (l * r ^ 2))) = 1 / (l ^ 2 * r) := by
      field_simp; ring
    have e4 : alpha * BIG_G * m * b.mass * E * ((3 / r ^ 5 + 3 / (l * r ^ 4) + 1 / (l ^ 2 * r ^ 3)) * r ^ 2 - 3 * (1 / r ^ 3 + 1 / (l * r ^ 2))) =
        -(l ^ 2)⁻¹ * (-(alpha * BIG_G * m * b.mass) / r * E) := by
      rw [e3]; field_simp
    rw [← e4, e]
    ring

/-! ## Work -/

theorem energy_fderiv (A B : PtArray) (d : V3) (h : Apart (translate_point_array A d) B) :
    HasFDerivAt (fun e => newtonEnergy (translate_point_array A e) B) (-dotL (totF gW (translate_point_array A d) B)) d := by
  induction A with
  | nil =>
    simp only [translate_point_array, List.map_nil, newtonEnergy, totF, List.sum_nil]
    refine (hasFDerivAt_const (0 : ℝ) d).congr_fderiv ?_
    ext v; simp
  | cons a A ih =>
    have e1 : (fun e => newtonEnergy (translate_point_array (a :: A) e) B) =
        fun e => newtonEnergy [⟨a.mass, a.pos + e⟩] B + newtonEnergy (translate_point_array A e) B := by
      funext e; simp [newtonEnergy, translate_point_array, translate_point]
    have e2 : totF gW (translate_point_array (a :: A) d) B = (B.map fun b => gW ⟨a.mass, a.pos + d⟩ b • (b.pos - (a.pos + d))).sum + totF gW (translate_point_array A d) B := by
      simp [totF, translate_point_array, translate_point]
    rw [e1, e2, dotL_add, neg_add]
    refine HasFDerivAt.add ?_ (ih fun a' ha' b hb => h a' (List.mem_cons_of_mem _ ha') b hb)
    obtain ⟨F, hF, hd⟩ := C08_gravity_gradient a.mass (a.pos + d) B fun b hb => h (translate_point d a) (by simp [translate_point_array]) b hb
    have hF' : F = (B.map fun b => gW ⟨a.mass, a.pos + d⟩ b • (b.pos - (a.pos + d))).sum := by
      have := gmmr2_array_some (p := ⟨a.mass, a.pos + d⟩) (B := B) fun b hb => h (translate_point d a) (by simp [translate_point_array]) b hb
      rw [this] at hF
      exact (Option.some.inj hF).symm
    rw [← hF']
    have hs : HasFDerivAt (fun e : V3 => a.pos + e) (ContinuousLinearMap.id ℝ V3) d := (hasFDerivAt_id d).const_add a.pos
    have := hd.comp d hs
    rw [ContinuousLinearMap.comp_id] at this
    exact this

theorem force_tendsto (A B : PtArray) (path : ℝ → V3) (S : Set ℝ) (hp : ContinuousOn path S) (h : ∀ t ∈ S, Apart (translate_point_array A (path t)) B) :
    ContinuousOn (fun t => totF gW (translate_point_array A (path t)) B) S := by
  intro t ht
  have key : ∀ a ∈ A, Tendsto (fun s => (B.map fun b => gW ⟨a.mass, a.pos + path s⟩ b • (b.pos - (a.pos + path s))).sum) (𝓝[S] t)
      (𝓝 (B.map fun b => gW ⟨a.mass, a.pos + path t⟩ b • (b.pos - (a.pos + path t))).sum) := by
    intro a ha
    refine tendsto_list_sum (fun b s => gW ⟨a.mass, a.pos + path s⟩ b • (b.pos - (a.pos + path s))) _ B fun b hb => ?_
    have hne : a.pos + path t ≠ b.pos := h t ht (translate_point (path t) a) (List.mem_map_of_mem ha) b hb
    have hpt : Tendsto (fun s => b.pos - (a.pos + path s)) (𝓝[S] t) (𝓝 (b.pos - (a.pos + path t))) := tendsto_const_nhds.sub (tendsto_const_nhds.add (hp t ht))
    refine Tendsto.smul ?_ hpt
    unfold gW
    refine Tendsto.div tendsto_const_nhds (((modulus_continuous.tendsto _).comp hpt).pow 3) (pow_ne_zero _ ?_)
    exact (modulus_pos (sub_ne_zero.2 hne.symm)).ne'
  have h2 := tendsto_list_sum (fun (a : Pt) s => (B.map fun b => gW ⟨a.mass, a.pos + path s⟩ b • (b.pos - (a.pos + path s))).sum) _ A key
  have e : ∀ s, totF gW (translate_point_array A (path s)) B = (A.map fun a => (B.map fun b => gW ⟨a.mass, a.pos + path s⟩ b • (b.pos - (a.pos + path s))).sum).sum := by
    intro s; rw [totF, translate_point_array, List.map_map]; rfl
  rw [ContinuousWithinAt]
  simp only [e]
  exact h2

/-- C121: carrying a body along any smooth path that does not touch the other body, the work done by the computed force is the difference of the
energies at its ends, and nothing if the path is closed. -/
theorem C121_work (A B : PtArray) (path vel : ℝ → V3) (a b : ℝ) (hp : ∀ t ∈ Set.uIcc a b, HasDerivAt path (vel t) t)
    (hv : ContinuousOn vel (Set.uIcc a b)) (h : ∀ t ∈ Set.uIcc a b, Apart (translate_point_array A (path t)) B) :
    ∃ F T : ℝ → V3, (∀ t ∈ Set.uIcc a b, point_matrix_gravity (translate_point_array A (path t)) B = some (F t, T t)) ∧
      ∫ t in a..b, F t ⬝ᵥ vel t = newtonEnergy (translate_point_array A (path a)) B - newtonEnergy (translate_point_array A (path b)) B ∧
      (path a = path b → ∫ t in a..b, F t ⬝ᵥ vel t = 0) := by
  have key : ∫ t in a..b, totF gW (translate_point_array A (path t)) B ⬝ᵥ vel t = newtonEnergy (translate_point_array A (path a)) B - newtonEnergy (translate_point_array A (path b)) B := by
    have hd : ∀ t ∈ Set.uIcc a b, HasDerivAt (fun s => -newtonEnergy (translate_point_array A (path s)) B) (totF gW (translate_point_array A (path t)) B ⬝ᵥ vel t) t := by
      intro t ht
      have h1 := ((energy_fderiv A B (path t) (h t ht)).comp_hasDerivAt t (hp t ht)).neg
      refine h1.congr_deriv ?_
      simp
    have hc : ContinuousOn (fun t => totF gW (translate_point_array A (path t)) B ⬝ᵥ vel t) (Set.uIcc a b) := by
      have hF := force_tendsto A B path _ (fun t ht => (hp t ht).continuousAt.continuousWithinAt) h
      simp only [dotProduct, Fin.sum_univ_three]
      have c1 : ∀ i, ContinuousOn (fun t => totF gW (translate_point_array A (path t)) B i) (Set.uIcc a b) := fun i => (continuous_apply i).comp_continuousOn hF
      have c2 : ∀ i, ContinuousOn (fun t => vel t i) (Set.uIcc a b) := fun i => (continuous_apply i).comp_continuousOn hv
      exact (((c1 0).mul (c2 0)).add ((c1 1).mul (c2 1))).add ((c1 2).mul (c2 2))
    rw [intervalIntegral.integral_eq_sub_of_hasDerivAt hd hc.intervalIntegrable]
    ring
  refine ⟨fun t => totF gW (translate_point_array A (path t)) B, fun t => totT gW (translate_point_array A (path t)) B, fun t ht => pmg_some (h t ht), key, fun e => ?_⟩
  rw [key, e, sub_self]

/-- Instance: two points, moved along a circle around the source. -/
example : ∃ F T : ℝ → V3, (∀ t ∈ Set.uIcc 0 (2 * Real.pi), point_matrix_gravity (translate_point_array [⟨1, 0⟩] ![2 * Real.cos t, 2 * Real.sin t, 0]) [⟨3, ![0, 0, 1]⟩] = some (F t, T t)) ∧
    ∫ t in (0 : ℝ)..(2 * Real.pi), F t ⬝ᵥ ![-(2 * Real.sin t), 2 * Real.cos t, 0] = 0 := by
  obtain ⟨F, T, h1, -, h2⟩ := C121_work [⟨1, 0⟩] [⟨3, ![0, 0, 1]⟩] (fun t => ![2 * Real.cos t, 2 * Real.sin t, 0]) (fun t => ![-(2 * Real.sin t), 2 * Real.cos t, 0]) 0 (2 * Real.pi)
    (fun t _ => by
      rw [hasDerivAt_pi]
      intro i
      fin_cases i
      · simpa using (Real.hasDerivAt_cos t).const_mul 2
      · simpa using (Real.hasDerivAt_sin t).const_mul 2
      · simpa using hasDerivAt_const t (0 : ℝ))
    (by
      refine Continuous.continuousOn (continuous_pi fun i => ?_)
      fin_cases i <;> simp <;> fun_prop)
    (by
      intro t _ a ha b hb e
      simp only [translate_point_array, translate_point, List.map_cons, List.map_nil, List.mem_singleton] at ha hb
      subst ha hb
      simpa using congrFun e 2)
  exact ⟨F, T, h1, h2 (by simp)⟩

/-- Instance: the gradient on the axis of a single mass. -/
example : tidal 1 [⟨5, ![0, 0, 2]⟩] 0 2 2 = BIG_G * 1 * 5 * (2 / 8) := by
  have : dist3 0 ![0, 0, 2] = 2 := by
    rw [dist3, Real.sqrt_eq_iff_mul_self_eq_of_pos (by norm_num)]; simp [Fin.sum_univ_three]; norm_num
  simp only [tidal, List.map_cons, List.map_nil, List.sum_cons, List.sum_nil, this]
  simp
  norm_num

end Newt
