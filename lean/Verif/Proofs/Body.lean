import Verif.Spec.Body
import Verif.Proofs.QlmBall
import Verif.Proofs.TransRecurs3
import Verif.Props.Translations

/-! # Moments of moved bodies -/

namespace Newt

open Spec MeasureTheory

theorem turnZ_eq (t : ℝ) : turnZ t = rz t := by
  funext v i; fin_cases i <;> simp [turnZ, rz] <;> ring

theorem turnY_eq (t : ℝ) : turnY t = ry t := by
  funext v i; fin_cases i <;> simp [turnY, ry] <;> ring

theorem euler_eq (alpha beta gamma : ℝ) : euler alpha beta gamma = eul alpha beta gamma := by
  funext v; rw [euler, eul, turnZ_eq, turnZ_eq, turnY_eq]

namespace Spec.Piece

variable {E : Type*} [NormedAddCommGroup E]

theorem integrable (p : Piece) {f : V3 → E} (hf : Continuous f) : Integrable f p.mu := by
  have := p.fin
  obtain ⟨K, hK, h0⟩ := p.supp
  have h1 : IntegrableOn f K p.mu := hf.continuousOn.integrableOn_compact hK
  rwa [IntegrableOn, Measure.restrict_eq_self_of_ae_mem] at h1
  rw [ae_iff]; exact h0

theorem move_univ (p : Piece) (f : V3 → V3) (hf : Continuous f) : (p.move f hf).mu Set.univ = p.mu Set.univ := by
  change (p.mu.map f) Set.univ = _
  rw [Measure.map_apply hf.measurable MeasurableSet.univ, Set.preimage_univ]

theorem integral_move [NormedSpace ℝ E] (p : Piece) (f : V3 → V3) (hf : Continuous f) (g : V3 → E)
    (hg : Continuous g) : ∫ v, g v ∂(p.move f hf).mu = ∫ v, g (f v) ∂p.mu := by
  change ∫ v, g v ∂(p.mu.map f) = _
  rw [integral_map hf.measurable.aemeasurable]
  exact ((p.move f hf).integrable hg).aestronglyMeasurable

end Spec.Piece

namespace Spec.Body

theorem list_sum_add {α M : Type*} [AddCommMonoid M] (L : List α) (f g : α → M) :
    (L.map fun a => f a + g a).sum = (L.map f).sum + (L.map g).sum := by
  induction L with
  | nil => simp
  | cons a L ih => simp only [List.map_cons, List.sum_cons, ih]; exact add_add_add_comm _ _ _ _

theorem list_sum_finset {α ι M : Type*} [AddCommMonoid M] (L : List α) (s : Finset ι) (f : ι → α → M) :
    (L.map fun a => ∑ i ∈ s, f i a).sum = ∑ i ∈ s, (L.map (f i)).sum := by
  induction L with
  | nil => simp
  | cons a L ih => simp [ih, Finset.sum_add_distrib]

theorem mass_translate (b : Body) (d : V3) : (b.translate d).mass = b.mass := by
  simp only [Body.mass, Body.translate, List.map_map, Function.comp_def, Piece.move_univ]
  rfl

theorem mass_rotate (b : Body) (alpha beta gamma : ℝ) : (b.rotate alpha beta gamma).mass = b.mass := by
  simp only [Body.mass, Body.rotate, List.map_map, Function.comp_def, Piece.move_univ]
  rfl

theorem first_translate (b : Body) (d : V3) (i : Fin 3) :
    (b.translate d).first i = b.first i + b.mass * d i := by
  simp only [Body.first, Body.translate, Body.mass, List.map_map, Function.comp_def]
  have : ∀ p : Piece, (p.move (fun v => v + d) (continuous_id.add continuous_const)).rho
      * ∫ v, v i ∂(p.move (fun v => v + d) (continuous_id.add continuous_const)).mu
      = p.rho * ∫ v, v i ∂p.mu + p.rho * (p.mu Set.univ).toReal * d i := by
    intro p
    rw [Piece.integral_move p _ _ _ (continuous_apply i)]
    have := p.fin
    simp only [Pi.add_apply]
    rw [integral_add (p.integrable (continuous_apply i)) (integrable_const _), integral_const]
    change p.rho * _ = _
    rw [smul_eq_mul, Measure.real]; ring
  simp only [this]
  rw [list_sum_add, List.sum_map_mul_right]

/-- Any linear map of coordinates passes to the first moment. -/
theorem first_lin (b : Body) (f : V3 → V3) (hf : Continuous f) (R : Matrix (Fin 3) (Fin 3) ℝ)
    (hR : ∀ v, f v = R.mulVec v) (i : Fin 3) :
    Body.first (b.map fun p => p.move f hf) i = R.mulVec (b.first) i := by
  simp only [Body.first, List.map_map, Function.comp_def]
  have : ∀ p : Piece, (p.move f hf).rho * ∫ v, v i ∂(p.move f hf).mu
      = ∑ j, R i j * (p.rho * ∫ v, v j ∂p.mu) := by
    intro p
    rw [Piece.integral_move p _ _ _ (continuous_apply i)]
    have e : ∀ v : V3, f v i = ∑ j, R i j * v j := by
      intro v; rw [hR v]; rfl
    simp only [e]
    rw [integral_finset_sum _ fun j _ => (p.integrable (continuous_apply j)).const_mul _]
    simp only [integral_const_mul]
    change p.rho * _ = _
    rw [Finset.mul_sum]
    exact Finset.sum_congr rfl fun j _ => by ring
  simp only [this]
  rw [list_sum_finset]
  simp only [List.sum_map_mul_left]
  rfl

theorem inner_translate (b : Body) (d : V3) (l : ℕ) (m : ℤ) :
    (b.translate d).inner l m = (Nlm l m : ℂ) * ∑ k ∈ Finset.range (l + 1), ∑ n ∈ Finset.Icc (-(k : ℤ)) k,
      Rsol (l - k) (m - n) d * (b.inner k n / (Nlm k n : ℂ)) := by
  simp only [Body.inner, Body.translate, List.map_map, Function.comp_def]
  have : ∀ p : Piece, ((p.move (fun v => v + d) (continuous_id.add continuous_const)).rho : ℂ)
      * ∫ v, solidS l m v ∂(p.move (fun v => v + d) (continuous_id.add continuous_const)).mu
      = ∑ k ∈ Finset.range (l + 1), ∑ n ∈ Finset.Icc (-(k : ℤ)) k,
        ((Nlm l m : ℂ) * Rsol (l - k) (m - n) d / (Nlm k n : ℂ)) * ((p.rho : ℂ) * ∫ v, solidS k n v ∂p.mu) := by
    intro p
    rw [Piece.integral_move p _ _ _ (continuous_solidS l m)]
    have e : ∀ v : V3, solidS l m (v + d) = ∑ k ∈ Finset.range (l + 1), ∑ n ∈ Finset.Icc (-(k : ℤ)) k,
        ((Nlm l m : ℂ) * Rsol (l - k) (m - n) d / (Nlm k n : ℂ)) * solidS k n v := by
      intro v
      rw [solidS, Rsol_add, Finset.mul_sum]
      refine Finset.sum_congr rfl fun k _ => ?_
      rw [Finset.mul_sum]
      refine Finset.sum_congr rfl fun n _ => ?_
      have := Nlm_ne k n
      rw [solidS]
      field_simp
    simp only [e]
    rw [integral_finset_sum _ fun k _ => integrable_finset_sum _ fun n _ =>
      (p.integrable (continuous_solidS k n)).const_mul _]
    change (p.rho : ℂ) * _ = _
    rw [Finset.mul_sum]
    refine Finset.sum_congr rfl fun k _ => ?_
    rw [integral_finset_sum _ fun n _ => (p.integrable (continuous_solidS k n)).const_mul _, Finset.mul_sum]
    refine Finset.sum_congr rfl fun n _ => ?_
    rw [integral_const_mul]; ring
  simp only [this]
  rw [list_sum_finset, Finset.mul_sum]
  refine Finset.sum_congr rfl fun k _ => ?_
  rw [list_sum_finset, Finset.mul_sum]
  refine Finset.sum_congr rfl fun n _ => ?_
  rw [List.sum_map_mul_left]
  ring

theorem inner_rotate (b : Body) (alpha beta gamma : ℝ) (l : ℕ) (m : ℤ) (hm : m.natAbs ≤ l) :
    (b.rotate alpha beta gamma).inner l m =
      ∑ n ∈ Finset.Icc (-(l : ℤ)) l, bigD l alpha beta gamma m n * b.inner l n := by
  simp only [Body.inner, Body.rotate, List.map_map, Function.comp_def]
  have : ∀ p : Piece, ((p.move (euler alpha beta gamma) (continuous_euler alpha beta gamma)).rho : ℂ)
      * ∫ v, solidS l m v ∂(p.move (euler alpha beta gamma) (continuous_euler alpha beta gamma)).mu
      = ∑ n ∈ Finset.Icc (-(l : ℤ)) l,
        bigD l alpha beta gamma m n * ((p.rho : ℂ) * ∫ v, solidS l n v ∂p.mu) := by
    intro p
    rw [Piece.integral_move p _ _ _ (continuous_solidS l m)]
    have e : ∀ v : V3, solidS l m (euler alpha beta gamma v) = ∑ n ∈ Finset.Icc (-(l : ℤ)) l,
        bigD l alpha beta gamma m n * solidS l n v := by
      intro v
      rw [euler_eq, eul, solidS_rot l m hm]
    simp only [e]
    rw [integral_finset_sum _ fun n _ => (p.integrable (continuous_solidS l n)).const_mul _]
    change (p.rho : ℂ) * _ = _
    rw [Finset.mul_sum]
    refine Finset.sum_congr rfl fun n _ => ?_
    rw [integral_const_mul]; ring
  simp only [this]
  rw [list_sum_finset]
  simp only [List.sum_map_mul_left]

theorem inner_neg (b : Body) (l : ℕ) (m : ℤ) :
    b.inner l (-m) = (-1) ^ m.natAbs * (starRingEnd ℂ) (b.inner l m) := by
  induction b with
  | nil => simp [Body.inner]
  | cons p b ih =>
    have e : ∀ n, Body.inner (p :: b) l n = (p.rho : ℂ) * ∫ v, solidS l n v ∂p.mu + Body.inner b l n := fun n => rfl
    rw [e, e, ih, map_add, mul_add, map_mul, Complex.conj_ofReal, ← integral_conj]
    simp_rw [solidS_neg]
    rw [integral_const_mul]; ring

theorem inner_out (b : Body) (l : ℕ) (m : ℤ) (h : l < m.natAbs) : b.inner l m = 0 := by
  simp [Body.inner, solidS_out l m _ h]

theorem inner_valid (L : ℕ) (b : Body) : Valid (Mom.ofFn L b.inner) :=
  valid_ofFn _ (fun l m _ _ => inner_neg b l m) (fun l m _ h => inner_out b l m h)

theorem inner_append (b c : Body) (l : ℕ) (m : ℤ) : Body.inner (b ++ c) l m = b.inner l m + c.inner l m := by
  simp [Body.inner]

theorem mass_append (b c : Body) : Body.mass (b ++ c) = b.mass + c.mass := by
  simp [Body.mass]

theorem first_append (b c : Body) (i : Fin 3) : Body.first (b ++ c) i = b.first i + c.first i := by
  simp [Body.first]

theorem inner_points (A : PtArray) (l : ℕ) (m : ℤ) : (Body.points A).inner l m = innerMoment A l m := by
  simp only [Body.inner, Body.points, innerMoment, List.map_map, Function.comp_def, Piece.point]
  simp only [integral_dirac]

theorem mass_points (A : PtArray) : (Body.points A).mass = (A.map Pt.mass).sum := by
  simp only [Body.mass, Body.points, List.map_map, Function.comp_def, Piece.point]
  simp

theorem first_points (A : PtArray) (i : Fin 3) :
    (Body.points A).first i = (A.map fun p => p.mass * p.pos i).sum := by
  simp only [Body.first, Body.points, List.map_map, Function.comp_def, Piece.point, integral_dirac]

theorem inner_solid (mass : ℝ) (S : Set V3) (hS : IsCompact S) (l : ℕ) (m : ℤ) :
    (Body.solid mass S hS).inner l m = uniformMoment mass S l m := by
  simp [Body.inner, Body.solid, uniformMoment]

theorem mass_solid (mass : ℝ) (S : Set V3) (hS : IsCompact S) (hv : (volume S).toReal ≠ 0) :
    (Body.solid mass S hS).mass = mass := by
  simp only [Body.mass, Body.solid, List.map_cons, List.map_nil, List.sum_cons, List.sum_nil, add_zero,
    Measure.restrict_apply_univ]
  field_simp

end Spec.Body

end Newt
