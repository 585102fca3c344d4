import Verif.Proofs.GaussMoment

/-! # The filtered and rescaled arrays of `gShapeGL.py` -/

namespace Newt.GLeg

open Spec Finset


theorem sum_filter_map (A : PtArray) (P : Pt → Prop) [DecidablePred P] (g : Pt → ℝ) :
    ((A.filter fun p => decide (P p)).map g).sum = (A.map fun p => if P p then g p else 0).sum := by
  induction A with
  | nil => rfl
  | cons p A ih =>
    by_cases h : P p
    · rw [List.filter_cons_of_pos (by simpa using h)]; simp [ih, h]
    · rw [List.filter_cons_of_neg (by simpa using h)]; simp [ih, h]

/-- What a rescaled array looks like. -/
theorem rescale_ok {mass : ℝ} {A B : PtArray} (h : rescale mass A = .ok B) (hB : B ≠ []) :
    A ≠ [] ∧ (A.map Pt.mass).sum ≠ 0 ∧ B = A.map fun p => ⟨p.mass * (mass / (A.map Pt.mass).sum), p.pos⟩ := by
  unfold rescale at h
  simp only at h
  split_ifs at h with h1 h2
  · exact absurd (Out.ok.inj h).symm hB
  · exact ⟨h1, h2, (Out.ok.inj h).symm⟩

theorem rescale1_ok {mass : ℝ} {A B : PtArray} (h : rescale1 mass A = .ok B) :
    A ≠ [] ∧ (A.map Pt.mass).sum ≠ 0 ∧ B = A.map fun p => ⟨p.mass * (mass / (A.map Pt.mass).sum), p.pos⟩ := by
  unfold rescale1 at h
  split_ifs at h with h1
  refine rescale_ok h ?_
  unfold rescale at h
  simp only at h
  rw [if_neg h1] at h
  split_ifs at h with h2
  intro hB
  rw [hB] at h
  exact h1 (by simpa using Out.ok.inj h)

theorem rescale1_eq (mass : ℝ) (A : PtArray) (h : A ≠ []) (h2 : (A.map Pt.mass).sum ≠ 0) :
    rescale1 mass A = .ok (A.map fun p => ⟨p.mass * (mass / (A.map Pt.mass).sum), p.pos⟩) := by
  rw [rescale1, if_neg h, rescale, if_neg h, if_neg h2]

theorem total_scaled (A : PtArray) (c : ℝ) : totalMass (A.map fun p => ⟨p.mass * c, p.pos⟩) = totalMass A * c := by
  induction A with
  | nil => simp [totalMass]
  | cons p A ih =>
    simp only [totalMass, List.map_cons, List.sum_cons] at ih ⊢
    rw [ih]; ring

theorem momA_scaled (A : PtArray) (c : ℝ) (e a b : ℕ) :
    momA (A.map fun p => ⟨p.mass * c, p.pos⟩) e a b = momA A e a b * c := by
  induction A with
  | nil => simp [momA]
  | cons p A ih =>
    simp only [momA, List.map_cons, List.sum_cons] at ih ⊢
    rw [ih]; ring

theorem momA_zero (A : PtArray) : momA A 0 0 0 = totalMass A := by
  simp [momA, totalMass]

theorem first_momA (A : PtArray) : firstMoment A 0 = momA A 0 1 0 ∧ firstMoment A 1 = momA A 0 0 1
    ∧ firstMoment A 2 = momA A 1 0 0 := by
  simp [momA, firstMoment]

theorem sum_pos_of_mem (A : PtArray) (hA : A ≠ []) (h : ∀ p ∈ A, 0 < p.mass) : 0 < (A.map Pt.mass).sum := by
  induction A with
  | nil => exact absurd rfl hA
  | cons p A ih =>
    simp only [List.map_cons, List.sum_cons]
    have h1 := h p (by simp)
    by_cases hA' : A = []
    · subst hA'; simpa using h1
    · have := ih hA' fun q hq => h q (by simp [hq])
      linarith

/-- The monomial sums of a filtered grid. -/
theorem momA_filter (nx ny nz : ℕ) (f : ℕ → ℕ → ℕ → Pt) (P : Pt → Prop) [DecidablePred P] (e a b : ℕ) :
    momA ((rows nx ny nz f).filter fun p => decide (P p)) e a b
      = ∑ k ∈ range nz, ∑ l ∈ range ny, ∑ m ∈ range nx, if P (f k l m) then
          (f k l m).mass * ((f k l m).pos 2 ^ e * ((f k l m).pos 0 ^ a * (f k l m).pos 1 ^ b)) else 0 := by
  rw [momA, sum_filter_map, rows_sum]

theorem momA_filter' (nx ny nz : ℕ) (f : ℕ → ℕ → ℕ → Pt) (P : Pt → Prop) [DecidablePred P] (e a b : ℕ) :
    momA ((rows nx ny nz f).filter fun p => decide (P p)) e a b
      = ∑ l ∈ range ny, ∑ m ∈ range nx, ∑ k ∈ range nz, if P (f k l m) then
          (f k l m).mass * ((f k l m).pos 2 ^ e * ((f k l m).pos 0 ^ a * (f k l m).pos 1 ^ b)) else 0 := by
  rw [momA_filter, sum_comm]
  exact sum_congr rfl fun l _ => sum_comm

section grid

variable {g : Rule} {n : ℕ} {q x0 a b c : ℝ} {f : ℕ → ℕ → ℕ → Pt} {P : Pt → Prop} [DecidablePred P]

/-- The grids of `gShapeGL.py`: product nodes, product weights. -/
def IsGrid (g : Rule) (q x0 a b c : ℝ) (f : ℕ → ℕ → ℕ → Pt) : Prop :=
  ∀ k l m, f k l m = ⟨g.w m * g.w l * g.w k * q, ![g.s m * a + x0, g.s l * b, g.s k * c]⟩

theorem momA_zodd (hg : Gauss g n) (hf : IsGrid g q x0 a b c f)
    (hP : ∀ mm mm' x y z, P ⟨mm, ![x, y, -z]⟩ ↔ P ⟨mm', ![x, y, z]⟩) (e i j : ℕ) (he : Odd e) :
    momA ((rows n n n f).filter fun p => decide (P p)) e i j = 0 := by
  rw [momA_filter, sum_comm]
  refine sum_eq_zero fun l _ => ?_
  rw [sum_comm]
  refine sum_eq_zero fun m _ => ?_
  have := sum_odd hg (fun s => if P ⟨0, ![g.s m * a + x0, g.s l * b, s * c]⟩ then
      g.w m * g.w l * q * ((s * c) ^ e * ((g.s m * a + x0) ^ i * (g.s l * b) ^ j)) else 0) (by
    intro s
    simp only [neg_mul, hP 0 0]
    split_ifs
    · rw [he.neg_pow]; ring
    · simp)
  refine (sum_congr rfl fun k _ => ?_).trans this
  have hPP : P (f k l m) ↔ P ⟨0, ![g.s m * a + x0, g.s l * b, g.s k * c]⟩ := by
    rw [hf]
    exact (hP 0 _ _ _ _).symm.trans (hP 0 0 _ _ _)
  by_cases h : P (f k l m)
  · rw [if_pos h, if_pos (hPP.1 h), hf]; simp; ring
  · rw [if_neg h, if_neg fun c => h (hPP.2 c)]; simp

theorem momA_yodd (hg : Gauss g n) (hf : IsGrid g q x0 a b c f)
    (hP : ∀ mm mm' x y z, P ⟨mm, ![x, -y, z]⟩ ↔ P ⟨mm', ![x, y, z]⟩) (e i j : ℕ) (he : Odd j) :
    momA ((rows n n n f).filter fun p => decide (P p)) e i j = 0 := by
  rw [momA_filter]
  refine sum_eq_zero fun k _ => ?_
  rw [sum_comm]
  refine sum_eq_zero fun m _ => ?_
  have := sum_odd hg (fun s => if P ⟨0, ![g.s m * a + x0, s * b, g.s k * c]⟩ then
      g.w m * g.w k * q * ((g.s k * c) ^ e * ((g.s m * a + x0) ^ i * (s * b) ^ j)) else 0) (by
    intro s
    simp only [neg_mul, hP 0 0]
    split_ifs
    · rw [he.neg_pow]; ring
    · simp)
  refine (sum_congr rfl fun l _ => ?_).trans this
  have hPP : P (f k l m) ↔ P ⟨0, ![g.s m * a + x0, g.s l * b, g.s k * c]⟩ := by
    rw [hf]
    exact (hP 0 _ _ _ _).symm.trans (hP 0 0 _ _ _)
  by_cases h : P (f k l m)
  · rw [if_pos h, if_pos (hPP.1 h), hf]; simp; ring
  · rw [if_neg h, if_neg fun c => h (hPP.2 c)]; simp

theorem momA_xodd (hg : Gauss g n) (hf : IsGrid g q 0 a b c f)
    (hP : ∀ mm mm' x y z, P ⟨mm, ![-x, y, z]⟩ ↔ P ⟨mm', ![x, y, z]⟩) (e i j : ℕ) (he : Odd i) :
    momA ((rows n n n f).filter fun p => decide (P p)) e i j = 0 := by
  rw [momA_filter]
  refine sum_eq_zero fun k _ => ?_
  refine sum_eq_zero fun l _ => ?_
  have := sum_odd hg (fun s => if P ⟨0, ![s * a + 0, g.s l * b, g.s k * c]⟩ then
      g.w l * g.w k * q * ((g.s k * c) ^ e * ((s * a) ^ i * (g.s l * b) ^ j)) else 0) (by
    intro s
    simp only [neg_mul, hP 0 0, add_zero]
    split_ifs
    · rw [he.neg_pow]; ring
    · simp)
  refine (sum_congr rfl fun m _ => ?_).trans this
  have hPP : P (f k l m) ↔ P ⟨0, ![g.s m * a + 0, g.s l * b, g.s k * c]⟩ := by
    rw [hf]
    exact (hP 0 _ _ _ _).symm.trans (hP 0 0 _ _ _)
  by_cases h : P (f k l m)
  · rw [if_pos h, if_pos (hPP.1 h), hf]; simp; ring
  · rw [if_neg h, if_neg fun c => h (hPP.2 c)]; simp

/-- If the selection ignores `z`, the height moments are those of `|z| <= c`. -/
theorem momA_zz (hg : Gauss g n) (hn : 2 ≤ n) (hf : IsGrid g q x0 a b c f)
    (hP : ∀ mm mm' x y z z', P ⟨mm, ![x, y, z]⟩ ↔ P ⟨mm', ![x, y, z']⟩) :
    momA ((rows n n n f).filter fun p => decide (P p)) 2 0 0
      = c ^ 2 / 3 * momA ((rows n n n f).filter fun p => decide (P p)) 0 0 0 := by
  rw [momA_filter', momA_filter', mul_sum]
  refine sum_congr rfl fun l _ => ?_
  rw [mul_sum]
  refine sum_congr rfl fun m _ => ?_
  have hPP : ∀ k, P (f k l m) ↔ P ⟨0, ![g.s m * a + x0, g.s l * b, 0]⟩ := by
    intro k
    rw [hf]
    exact hP _ _ _ _ _ _
  by_cases h : P ⟨0, ![g.s m * a + x0, g.s l * b, 0]⟩
  · have hk : ∀ k, P (f k l m) := fun k => (hPP k).2 h
    simp only [hk, if_true]
    have h2 := gauss_pow hg 2 (by omega)
    have h0 := gauss_one hg (by omega)
    have e2 : ∑ k ∈ range n, (f k l m).mass * ((f k l m).pos 2 ^ 2 * ((f k l m).pos 0 ^ 0 * (f k l m).pos 1 ^ 0))
        = g.w m * g.w l * q * c ^ 2 * ∑ k ∈ range n, g.w k * g.s k ^ 2 := by
      rw [mul_sum]
      refine sum_congr rfl fun k _ => ?_
      rw [hf]; simp; ring
    have e0 : ∑ k ∈ range n, (f k l m).mass * ((f k l m).pos 2 ^ 0 * ((f k l m).pos 0 ^ 0 * (f k l m).pos 1 ^ 0))
        = g.w m * g.w l * q * ∑ k ∈ range n, g.w k := by
      rw [mul_sum]
      refine sum_congr rfl fun k _ => ?_
      rw [hf]; simp; ring
    rw [e2, e0, h2, h0, integral_pow]
    norm_num
    ring
  · have hk : ∀ k, ¬ P (f k l m) := fun k hc => h ((hPP k).1 hc)
    simp [hk]

end grid

end Newt.GLeg
