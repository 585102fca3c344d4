import Verif.Props.Glib
import Mathlib.Analysis.Calculus.FDeriv.Pi
import Mathlib.Analysis.Calculus.FDeriv.Mul
import Mathlib.Analysis.SpecialFunctions.Sqrt
import Mathlib.Analysis.SpecialFunctions.ExpDeriv
import Mathlib.Analysis.SpecialFunctions.Trigonometric.Deriv

/-!
# Properties C08, C10, C45 of `newt/glib.py`: forces and torques as derivatives of the energy
-/

namespace Newt

open Spec Matrix

/-- squared distance -/
noncomputable def sqd (x y : V3) : ℝ := ∑ i, (x i - y i) ^ 2

theorem sqd_eq (x y : V3) : sqd x y = modulus (y - x) ^ 2 := by
  rw [modulus, Real.sq_sqrt (by positivity), sqd]
  simp [Fin.sum_univ_three]; ring

theorem sqd_pos {x y : V3} (h : x ≠ y) : 0 < sqd x y := by
  rw [sqd_eq]; exact pow_pos (modulus_pos (sub_ne_zero.2 h.symm)) 2

theorem dist3_eq_sqrt (x y : V3) : dist3 x y = Real.sqrt (sqd x y) := rfl

/-- The linear functional `y ↦ F · y`. -/
noncomputable def dotL (F : V3) : V3 →L[ℝ] ℝ := ∑ i, F i • ContinuousLinearMap.proj i

@[simp] theorem dotL_apply (F y : V3) : dotL F y = F ⬝ᵥ y := by
  simp [dotL, dotProduct]

theorem dotL_add (F G : V3) : dotL (F + G) = dotL F + dotL G := by
  ext y; simp [add_dotProduct]

theorem hasFDerivAt_sqd (x b : V3) :
    HasFDerivAt (fun y => sqd y b) (dotL ((2 : ℝ) • (x - b))) x := by
  have h : ∀ i : Fin 3, HasFDerivAt (fun y : V3 => (y i - b i) ^ 2)
      ((2 * (x i - b i)) • (ContinuousLinearMap.proj i : V3 →L[ℝ] ℝ)) x := by
    intro i
    have h1 : HasFDerivAt (fun y : V3 => y i - b i)
        (ContinuousLinearMap.proj i : V3 →L[ℝ] ℝ) x :=
      (hasFDerivAt_apply i x).sub_const _
    have := h1.pow 2
    simpa using this
  have hs := HasFDerivAt.fun_sum (u := Finset.univ) (fun i _ => h i)
  unfold sqd
  refine hs.congr_fderiv ?_
  ext y
  simp [dotProduct, Fin.sum_univ_three]

/-- derivative of `-c/sqrt s` -/
theorem hasDerivAt_newton (c s : ℝ) (hs : 0 < s) :
    HasDerivAt (fun t => -c / Real.sqrt t) (c / Real.sqrt s ^ 3 / 2) s := by
  have h := (Real.hasDerivAt_sqrt hs.ne').inv (Real.sqrt_pos.2 hs).ne'
  have h2 := h.const_mul (-c)
  have e : (fun t => -c / Real.sqrt t) = fun t => -c * (Real.sqrt t)⁻¹ := by
    funext t; rw [div_eq_mul_inv]
  rw [e]
  refine h2.congr_deriv ?_
  have := (Real.sqrt_pos.2 hs).ne'
  field_simp

/-- derivative of `-c/sqrt s * exp(-sqrt s/l)` -/
theorem hasDerivAt_yukawa (c l s : ℝ) (hl : l ≠ 0) (hs : 0 < s) :
    HasDerivAt (fun t => -c / Real.sqrt t * Real.exp (-Real.sqrt t / l))
      (c * Real.exp (-Real.sqrt s / l) * (1 / Real.sqrt s ^ 3 + 1 / (Real.sqrt s ^ 2 * l)) / 2)
      s := by
  have hq := (Real.sqrt_pos.2 hs).ne'
  have h1 := hasDerivAt_newton c s hs
  have h2 : HasDerivAt (fun t => Real.exp (-Real.sqrt t / l))
      (Real.exp (-Real.sqrt s / l) * (-(1 / (2 * Real.sqrt s)) / l)) s :=
    (((Real.hasDerivAt_sqrt hs.ne').neg).div_const l).exp
  refine (h1.mul h2).congr_deriv ?_
  field_simp

/-- A pair energy that is a function of the squared distance. -/
structure RadialPair (w : Pt → Pt → ℝ) (U : Pt → Pt → ℝ) (phi : ℝ → ℝ → ℝ → ℝ) : Prop where
  energy : ∀ p q, U p q = phi p.mass q.mass (sqd p.pos q.pos)
  deriv : ∀ p q : Pt, p.pos ≠ q.pos →
    HasDerivAt (phi p.mass q.mass) (w p q / 2) (sqd p.pos q.pos)

theorem gravity_radial : RadialPair gW
    (fun a b => -(BIG_G * a.mass * b.mass) / dist3 a.pos b.pos)
    (fun m n s => -(BIG_G * m * n) / Real.sqrt s) where
  energy p q := rfl
  deriv p q h := by
    have := hasDerivAt_newton (BIG_G * p.mass * q.mass) _ (sqd_pos h)
    rwa [gW, ← dist3_eq]

theorem yukawa_radial (alpha lmbd : ℝ) (hl : lmbd ≠ 0) : RadialPair (yW alpha lmbd)
    (fun a b => -(alpha * BIG_G * a.mass * b.mass) / dist3 a.pos b.pos
      * Real.exp (-dist3 a.pos b.pos / lmbd))
    (fun m n s => -(alpha * BIG_G * m * n) / Real.sqrt s * Real.exp (-Real.sqrt s / lmbd)) where
  energy p q := rfl
  deriv p q h := by
    have := hasDerivAt_yukawa (alpha * BIG_G * p.mass * q.mass) lmbd _ hl (sqd_pos h)
    rw [yW, ← dist3_eq]
    exact this

theorem pair_fderiv {w U phi} (hR : RadialPair w U phi) (m : ℝ) (x : V3) (q : Pt)
    (h : x ≠ q.pos) :
    HasFDerivAt (fun y => U ⟨m, y⟩ q) (dotL (-(w ⟨m, x⟩ q • (q.pos - x)))) x := by
  have h1 := (hR.deriv ⟨m, x⟩ q h).comp_hasFDerivAt x (hasFDerivAt_sqd x q.pos)
  have e : (fun y => U ⟨m, y⟩ q) = (phi m q.mass) ∘ fun y => sqd y q.pos := by
    funext y; exact hR.energy _ _
  rw [e]
  refine h1.congr_fderiv ?_
  ext y
  simp [dotProduct, Fin.sum_univ_three]
  ring

theorem list_fderiv {w U phi} (hR : RadialPair w U phi) (m : ℝ) (x : V3) :
    ∀ (B : PtArray), (∀ b ∈ B, x ≠ b.pos) →
    HasFDerivAt (fun y => (B.map fun b => U ⟨m, y⟩ b).sum)
      (-dotL (B.map fun b => w ⟨m, x⟩ b • (b.pos - x)).sum) x
  | [], _ => by
    simp only [List.map_nil, List.sum_nil]
    have : -dotL 0 = 0 := by ext y; simp
    rw [this]
    exact hasFDerivAt_const _ _
  | q :: B, h => by
    simp only [List.map_cons, List.sum_cons]
    have h1 := pair_fderiv hR m x q (h q List.mem_cons_self)
    have h2 := list_fderiv hR m x B (fun b hb => h b (List.mem_cons_of_mem _ hb))
    refine (h1.add h2).congr_fderiv ?_
    ext y; simp [add_comm]

/-- C08 (gravity): the force on a point mass is minus the gradient of the Newtonian energy with
respect to its position. -/
theorem C08_gravity_gradient (m : ℝ) (x : V3) (B : PtArray) (h : ∀ b ∈ B, x ≠ b.pos) :
    ∃ F, gmmr2_array ⟨m, x⟩ B = some F ∧
      HasFDerivAt (fun y => newtonEnergy [⟨m, y⟩] B) (-dotL F) x := by
  refine ⟨_, gmmr2_array_some h, ?_⟩
  simpa [newtonEnergy] using list_fderiv gravity_radial m x B h

/-- C08 (Yukawa). -/
theorem C08_yukawa_gradient (alpha lmbd : ℝ) (hl : lmbd ≠ 0) (m : ℝ) (x : V3) (B : PtArray)
    (h : ∀ b ∈ B, x ≠ b.pos) :
    ∃ F, yukawa_array ⟨m, x⟩ B alpha lmbd = some F ∧
      HasFDerivAt (fun y => yukawaEnergy alpha lmbd [⟨m, y⟩] B) (-dotL F) x := by
  refine ⟨_, yukawa_array_some hl h, ?_⟩
  simpa [yukawaEnergy] using list_fderiv (yukawa_radial alpha lmbd hl) m x B h

example : ∃ F, gmmr2_array ⟨2, ![0, 0, 5]⟩ exB = some F ∧
    HasFDerivAt (fun y => newtonEnergy [⟨2, y⟩] exB) (-dotL F) ![0, 0, 5] := by
  apply C08_gravity_gradient
  intro b hb e
  simp only [exB, List.mem_cons, List.not_mem_nil, or_false] at hb
  have e2 := congrFun e 2
  rcases hb with rfl | rfl <;> simp at e2

/-! ## C45: the torque is the derivative under rotation, the force under translation -/

theorem hasDerivAt_rotF {v : V3} (hv : v ≠ 0) (x : V3) (t : ℝ) :
    HasDerivAt (fun s => rotF s v x) (crossProduct (unitOf v) (rotF t v x)) t := by
  have hu := unitOf_unit hv
  set u := unitOf v with hud
  have hcc : crossProduct u (crossProduct u (crossProduct u x)) = -crossProduct u x := by
    have e : crossProduct u (crossProduct u (crossProduct u x)) =
        -(u 0 ^ 2 + u 1 ^ 2 + u 2 ^ 2) • crossProduct u x := by
      ext i; fin_cases i <;> simp [crossProduct] <;> ring
    rw [e, hu]; simp
  have e : (fun s => rotF s v x) = fun s => x + Real.sin s • crossProduct u x +
      (1 - Real.cos s) • crossProduct u (crossProduct u x) := by
    funext s; rw [rotF, rotR_mulVec]
  rw [e]
  have h1 : HasDerivAt (fun s => Real.sin s • crossProduct u x) (Real.cos t • crossProduct u x) t :=
    (Real.hasDerivAt_sin t).smul_const _
  have h2 : HasDerivAt (fun s => (1 - Real.cos s) • crossProduct u (crossProduct u x))
      (Real.sin t • crossProduct u (crossProduct u x)) t := by
    have := ((Real.hasDerivAt_cos t).const_sub 1).smul_const (crossProduct u (crossProduct u x))
    simpa using this
  refine ((h1.const_add x).add h2).congr_deriv ?_
  rw [rotF, ← hud, rotR_mulVec]
  simp only [map_add, map_smul, hcc]
  module

theorem pair_rot_deriv {w U phi} (hR : RadialPair w U phi) {v : V3} (hv : v ≠ 0)
    (p q : Pt) (t : ℝ) (h : rotF t v p.pos ≠ q.pos) :
    HasDerivAt (fun s => U ⟨p.mass, rotF s v p.pos⟩ q)
      (-(unitOf v ⬝ᵥ crossProduct (rotF t v p.pos)
        (w ⟨p.mass, rotF t v p.pos⟩ q • (q.pos - rotF t v p.pos)))) t := by
  have h1 := (pair_fderiv hR p.mass (rotF t v p.pos) q h).comp_hasDerivAt t
    (hasDerivAt_rotF hv p.pos t)
  refine h1.congr_deriv ?_
  simp only [dotL_apply]
  simp [crossProduct, dotProduct, Fin.sum_univ_three]
  ring

theorem hasDerivAt_list_sum {α : Type*} (f : α → ℝ → ℝ) (f' : α → ℝ) (t : ℝ) :
    ∀ (l : List α), (∀ a ∈ l, HasDerivAt (f a) (f' a) t) →
      HasDerivAt (fun s => (l.map fun a => f a s).sum) (l.map f').sum t
  | [], _ => by simpa using hasDerivAt_const t (0 : ℝ)
  | a :: l, h => by
    simp only [List.map_cons, List.sum_cons]
    exact (h a List.mem_cons_self).add
      (hasDerivAt_list_sum f f' t l fun b hb => h b (List.mem_cons_of_mem _ hb))

theorem dot_list_sum (u : V3) : ∀ l : List V3, u ⬝ᵥ l.sum = (l.map fun x => u ⬝ᵥ x).sum
  | [] => by simp
  | x :: l => by simp [dot_list_sum u l]

theorem total_rot_deriv {w U phi} (hR : RadialPair w U phi) {v : V3} (hv : v ≠ 0)
    (A B : PtArray) (t : ℝ) (h : Apart (mapPos (rotF t v) A) B) :
    HasDerivAt (fun s => ((mapPos (rotF s v) A).map fun a => (B.map fun b => U a b).sum).sum)
      (-(unitOf v ⬝ᵥ totT w (mapPos (rotF t v) A) B)) t := by
  have e : (fun s => ((mapPos (rotF s v) A).map fun a => (B.map fun b => U a b).sum).sum) =
      fun s => (A.map fun p => (B.map fun b => U ⟨p.mass, rotF s v p.pos⟩ b).sum).sum := by
    funext s; simp [mapPos, List.map_map, Function.comp_def]
  rw [e, totT_eq, dot_list_sum, ← neg_list_sum, mapPos, List.map_map, List.map_map, List.map_map]
  apply hasDerivAt_list_sum
  intro p hp
  simp only [Function.comp]
  rw [dot_list_sum, ← neg_list_sum, List.map_map, List.map_map]
  apply hasDerivAt_list_sum
  intro b hb
  exact pair_rot_deriv hR hv p b t (h ⟨p.mass, rotF t v p.pos⟩
    (List.mem_map.2 ⟨p, hp, rfl⟩) b hb)

/-- C45 (gravity): turning the array `A` about the axis `v` with `rotate_point_array`, the
component of the returned torque along the axis is, at every angle, minus the derivative of the
Newtonian energy with respect to the angle. -/
theorem C45_gravity_torque_derivative (A B : PtArray) (v : V3) (hv : v ≠ 0) (t : ℝ)
    (A' : PtArray) (hA' : rotate_point_array A t v = some A') (h : Apart A' B) :
    ∃ F T, point_matrix_gravity A' B = some (F, T) ∧
      HasDerivAt (fun s => newtonEnergy ((rotate_point_array A s v).getD []) B)
        (-((v ⬝ᵥ T) / Real.sqrt (v ⬝ᵥ v))) t := by
  rw [rotate_some hv] at hA'
  cases hA'
  refine ⟨_, _, pmg_some h, ?_⟩
  have h1 := total_rot_deriv gravity_radial hv A B t h
  have e : (fun s => newtonEnergy ((rotate_point_array A s v).getD []) B) =
      fun s => ((mapPos (rotF s v) A).map fun a => (B.map fun b =>
        -(BIG_G * a.mass * b.mass) / dist3 a.pos b.pos).sum).sum := by
    funext s; rw [rotate_some hv]; rfl
  rw [e]
  refine h1.congr_deriv ?_
  congr 1
  rw [unitOf_eq, smul_dotProduct, smul_eq_mul, ← modulus_eq_dot, div_eq_inv_mul]
  rfl

/-- C45 (Yukawa). -/
theorem C45_yukawa_torque_derivative (alpha lmbd : ℝ) (hl : lmbd ≠ 0) (A B : PtArray) (v : V3)
    (hv : v ≠ 0) (t : ℝ) (A' : PtArray) (hA' : rotate_point_array A t v = some A')
    (h : Apart A' B) :
    ∃ F T, point_matrix_yukawa A' B alpha lmbd = some (F, T) ∧
      HasDerivAt (fun s => yukawaEnergy alpha lmbd ((rotate_point_array A s v).getD []) B)
        (-((v ⬝ᵥ T) / Real.sqrt (v ⬝ᵥ v))) t := by
  rw [rotate_some hv] at hA'
  cases hA'
  refine ⟨_, _, pmy_some hl h, ?_⟩
  have h1 := total_rot_deriv (yukawa_radial alpha lmbd hl) hv A B t h
  have e : (fun s => yukawaEnergy alpha lmbd ((rotate_point_array A s v).getD []) B) =
      fun s => ((mapPos (rotF s v) A).map fun a => (B.map fun b =>
        -(alpha * BIG_G * a.mass * b.mass) / dist3 a.pos b.pos
      * Real.exp (-dist3 a.pos b.pos / lmbd)).sum).sum := by
    funext s; rw [rotate_some hv]; rfl
  rw [e]
  refine h1.congr_deriv ?_
  congr 1
  rw [unitOf_eq, smul_dotProduct, smul_eq_mul, ← modulus_eq_dot, div_eq_inv_mul]
  rfl

example : ∃ A', rotate_point_array exA 0 ![0, 0, 2] = some A' ∧ Apart A' exB := by
  have hv : (![0, 0, 2] : V3) ≠ 0 := fun e => by have := congrFun e 2; simp at this
  refine ⟨exA, ?_, exAB_apart⟩
  have := C07_rotate_full_turn exA 0 _ hv
  simpa using this

/-! ## C10: Yukawa versus Newton -/

theorem yW_eq (alpha lmbd : ℝ) (hl : lmbd ≠ 0) (p q : Pt) (h : p.pos ≠ q.pos) :
    yW alpha lmbd p q = alpha * gW p q *
      ((1 + dist3 p.pos q.pos / lmbd) * Real.exp (-(dist3 p.pos q.pos / lmbd))) := by
  have hm : modulus (q.pos - p.pos) ≠ 0 := (modulus_pos (sub_ne_zero.2 h.symm)).ne'
  rw [yW, gW, dist3_eq, neg_div]
  field_simp

theorem yuk_factor_lt_one {u : ℝ} (hu : 0 < u) : (1 + u) * Real.exp (-u) < 1 := by
  have h := Real.add_one_lt_exp hu.ne'
  rw [Real.exp_neg, ← div_eq_mul_inv, div_lt_one (Real.exp_pos u)]
  linarith

/-- C10: for a pair of points, the Yukawa force at `alpha = 1` is the Newtonian one times a factor
strictly between 0 and 1, for every finite positive range. -/
theorem C10_yukawa_weaker (p q : Pt) (lmbd : ℝ) (hl : 0 < lmbd) (h : p.pos ≠ q.pos) :
    ∃ (k : ℝ) (F : V3), 0 < k ∧ k < 1 ∧ gmmr2_array p [q] = some F ∧
      yukawa_array p [q] 1 lmbd = some (k • F) := by
  have hd : 0 < dist3 p.pos q.pos / lmbd := by
    rw [dist3_eq]; exact div_pos (modulus_pos (sub_ne_zero.2 h.symm)) hl
  refine ⟨(1 + dist3 p.pos q.pos / lmbd) * Real.exp (-(dist3 p.pos q.pos / lmbd)), _,
    by positivity, yuk_factor_lt_one hd, gmmr2_array_some (by simpa using h), ?_⟩
  rw [yukawa_array_some hl.ne' (by simpa using h)]
  simp only [List.map_cons, List.map_nil, List.sum_cons, List.sum_nil, add_zero,
    yW_eq 1 lmbd hl.ne' p q h]
  rw [smul_smul, one_mul, mul_comm]

open Filter Topology in
theorem yW_tendsto (p q : Pt) (h : p.pos ≠ q.pos) :
    Tendsto (fun lmbd => yW 1 lmbd p q) atTop (𝓝 (gW p q)) := by
  have h0 : Tendsto (fun lmbd => dist3 p.pos q.pos / lmbd) atTop (𝓝 0) :=
    tendsto_const_nhds.div_atTop tendsto_id
  have h1 : Tendsto (fun lmbd => 1 * gW p q *
      ((1 + dist3 p.pos q.pos / lmbd) * Real.exp (-(dist3 p.pos q.pos / lmbd)))) atTop
      (𝓝 (1 * gW p q * ((1 + 0) * Real.exp (-0)))) :=
    ((h0.const_add 1).mul ((Real.continuous_exp.tendsto _).comp h0.neg)).const_mul _
  rw [neg_zero, Real.exp_zero, add_zero, mul_one, mul_one, one_mul] at h1
  refine h1.congr' ?_
  filter_upwards [eventually_gt_atTop 0] with l hl
  rw [yW_eq 1 l hl.ne' p q h, one_mul]

open Filter Topology in
theorem tendsto_list_sum {α : Type*} {M : Type*} [AddCommMonoid M] [TopologicalSpace M]
    [ContinuousAdd M] {ι : Type*} {F : Filter ι} (f : α → ι → M) (g : α → M) :
    ∀ (l : List α), (∀ a ∈ l, Tendsto (f a) F (𝓝 (g a))) →
      Tendsto (fun s => (l.map fun a => f a s).sum) F (𝓝 (l.map g).sum)
  | [], _ => by simpa using tendsto_const_nhds
  | a :: l, h => by
    simp only [List.map_cons, List.sum_cons]
    exact (h a List.mem_cons_self).add
      (tendsto_list_sum f g l fun b hb => h b (List.mem_cons_of_mem _ hb))

open Filter Topology in
/-- C10: as the range goes to infinity, force and torque of the Yukawa interaction with
`alpha = 1` tend to the Newtonian ones. -/
theorem C10_yukawa_limit (A B : PtArray) (h : Apart A B) :
    ∃ F T, point_matrix_gravity A B = some (F, T) ∧ ∃ Fl Tl : ℝ → V3,
      (∀ lmbd, lmbd ≠ 0 → point_matrix_yukawa A B 1 lmbd = some (Fl lmbd, Tl lmbd)) ∧
      Tendsto Fl atTop (𝓝 F) ∧ Tendsto Tl atTop (𝓝 T) := by
  refine ⟨_, _, pmg_some h, _, _, fun l hl => pmy_some hl h, ?_, ?_⟩
  · unfold totF
    refine tendsto_list_sum _ _ A (fun a ha => tendsto_list_sum _ _ B (fun b hb => ?_))
    exact (yW_tendsto a b (h a ha b hb)).smul_const _
  · simp only [totT_eq]
    refine tendsto_list_sum _ _ A (fun a ha => tendsto_list_sum _ _ B (fun b hb => ?_))
    simp only [map_smul]
    exact (yW_tendsto a b (h a ha b hb)).smul_const _

example : ∃ (k : ℝ) (F : V3), 0 < k ∧ k < 1 ∧ gmmr2_array ⟨1, ![0, 0, 0]⟩ [⟨3, ![1, 0, 0]⟩] = some F ∧
    yukawa_array ⟨1, ![0, 0, 0]⟩ [⟨3, ![1, 0, 0]⟩] 1 2 = some (k • F) :=
  C10_yukawa_weaker _ _ 2 (by norm_num) (fun e => by have := congrFun e 0; simp at this)

end Newt
