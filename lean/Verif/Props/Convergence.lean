import Verif.Proofs.Addition

/-!
# Property C34: the multipole expansion converges to the direct sum
-/

namespace Newt

open Spec

theorem list_sum_mul_list_sum {R : Type*} [CommSemiring R] {α β : Type*} (f : α → R) (g : β → R) (A : List α) (B : List β) :
    (A.map f).sum * (B.map g).sum = (A.map fun a => (B.map fun b => f a * g b).sum).sum := by
  induction A with
  | nil => simp
  | cons a A ih =>
    rw [List.map_cons, List.sum_cons, add_mul, ih, List.map_cons, List.sum_cons, List.sum_map_mul_left]

theorem finset_sum_list {R : Type*} [AddCommMonoid R] {ι α : Type*} (S : Finset ι) (f : ι → α → R) (A : List α) :
    ∑ i ∈ S, (A.map (f i)).sum = (A.map fun a => ∑ i ∈ S, f i a).sum := by
  induction A with
  | nil => simp
  | cons a A ih => simp [Finset.sum_add_distrib, ih]

theorem pairSum_points (L : ℕ) (A B : PtArray) :
    pairSum (Mom.ofFn L (innerMoment A)) (Mom.ofFn L (outerMoment B)) =
      (A.map fun a => (B.map fun b => (a.mass : ℂ) * b.mass * ∑ l ∈ Finset.range (L + 1),
        ∑ m ∈ Finset.Icc (-(l : ℤ)) l, solidS l m a.pos * solidO l m b.pos / (2 * l + 1)).sum).sum := by
  have e : ∀ l ∈ Finset.range (L + 1), ∀ m ∈ Finset.Icc (-(l : ℤ)) l,
      (Mom.ofFn L (innerMoment A)).get l m * (Mom.ofFn L (outerMoment B)).get l m / (2 * l + 1) =
      (A.map fun a => (B.map fun b => (a.mass : ℂ) * b.mass * (solidS l m a.pos * solidO l m b.pos / (2 * l + 1))).sum).sum := by
    intro l hl m hm
    rw [Finset.mem_range] at hl
    rw [Finset.mem_Icc] at hm
    rw [Mom.get_ofFn _ (by omega) (by omega), Mom.get_ofFn _ (by omega) (by omega), innerMoment, outerMoment,
      list_sum_mul_list_sum, div_eq_mul_inv, ← List.sum_map_mul_right]
    congr 1
    apply List.map_congr_left
    intro a _
    rw [← List.sum_map_mul_right]
    congr 1
    apply List.map_congr_left
    intro b _
    ring
  rw [pairSum, Finset.sum_congr rfl fun l hl => Finset.sum_congr rfl (e l hl)]
  simp only [finset_sum_list, Finset.mul_sum]

theorem list_norm_sum_le {α : Type*} (A : List α) (f : α → ℂ) (g : α → ℝ) (h : ∀ a ∈ A, ‖f a‖ ≤ g a) :
    ‖(A.map f).sum‖ ≤ (A.map g).sum := by
  induction A with
  | nil => simp
  | cons a A ih =>
    rw [List.map_cons, List.sum_cons, List.map_cons, List.sum_cons]
    exact (norm_add_le _ _).trans (add_le_add (h a (by simp)) (ih fun b hb => h b (by simp [hb])))

theorem list_sum_sub {α : Type*} (A : List α) (f g : α → ℂ) :
    (A.map f).sum - (A.map g).sum = (A.map fun a => f a - g a).sum := by
  induction A with
  | nil => simp
  | cons a A ih => simp only [List.map_cons, List.sum_cons, ← ih]; ring

theorem ofReal_list_sum (l : List ℝ) : ((l.sum : ℝ) : ℂ) = (l.map fun x : ℝ => (x : ℂ)).sum := by
  induction l with
  | nil => simp
  | cons a l ih => simp [ih]

theorem pair_error (x y : V3) (a b : ℝ) (hx : modulus x ≤ a) (hy : b ≤ modulus y) (hab : a < b) (L : ℕ) :
    (modulus x / modulus y) ^ (L + 1) / (modulus y - modulus x) ≤ (a / b) ^ (L + 1) / (b - a) := by
  have h0 : 0 ≤ modulus x := Real.sqrt_nonneg _
  have hb : 0 < b := by linarith
  have ha : 0 ≤ a := h0.trans hx
  have hy0 : 0 ≤ modulus y := Real.sqrt_nonneg _
  have h1 : modulus x / modulus y ≤ a / b := by gcongr
  have h2 : 0 ≤ modulus x / modulus y := div_nonneg h0 hy0
  have h3 : 0 < b - a := by linarith
  have h4 : b - a ≤ modulus y - modulus x := by linarith
  gcongr

/-- C34 (error bound): if the first array lies within radius `a` of the origin and the second one outside
radius `b > a`, then the multipole energy to degree `L` differs from the exact pair energy by at
most `G M_A M_B (a/b)^(L+1)/(b-a)` (`M` = total absolute mass). -/
theorem C34_error_bound (L : ℕ) (A B : PtArray) (a b : ℝ) (hab : a < b) (h0 : ¬ OffAfterOrigin A)
    (hA : ∀ p ∈ A, modulus p.pos ≤ a) (hB : ∀ p ∈ B, b ≤ modulus p.pos) (ha : 0 ≤ a) :
    ∃ q, qmoments L A = some q ∧
      ‖multipoleEnergy BIG_G q (Qmomentsb L B) - (newtonEnergy A B : ℂ)‖ ≤
        |BIG_G| * absMass A * absMass B * ((a / b) ^ (L + 1) / (b - a)) := by
  have hBoff : OffOrigin B := by
    intro p hp h
    have := hB p hp
    rw [h, (modulus_eq_zero 0).2 rfl] at this
    linarith
  refine ⟨Mom.ofFn L (innerMoment A), qmoments_closed L A (Or.inr ?_), ?_⟩
  · exact (originLast_iff A).2 h0
  rw [Qmomentsb_closed L B hBoff, multipoleEnergy, pairSum_points, newtonEnergy, ofReal_list_sum, List.map_map,
    ← List.sum_map_mul_left, list_sum_sub]
  refine (list_norm_sum_le A _ (fun p => |BIG_G| * absMass B * ((a / b) ^ (L + 1) / (b - a)) * |p.mass|) ?_).trans
    (le_of_eq ?_)
  · intro p hp
    rw [Function.comp, ofReal_list_sum, List.map_map, ← List.sum_map_mul_left, list_sum_sub]
    refine (list_norm_sum_le B _ (fun s => |BIG_G| * ((a / b) ^ (L + 1) / (b - a)) * |p.mass| * |s.mass|) ?_).trans
      (le_of_eq ?_)
    · intro s hs
      have hsoff := hBoff s hs
      rw [Finset.sum_congr rfl fun l _ => term_eq l p.pos s.pos hsoff]
      rw [← Complex.ofReal_sum, ← Finset.mul_sum, Function.comp]
      have hlt : modulus p.pos < modulus s.pos := lt_of_le_of_lt (hA p hp) (lt_of_lt_of_le hab (hB s hs))
      have herr := (laplace_error p.pos s.pos hlt L).trans
        (pair_error p.pos s.pos a b (hA p hp) (hB s hs) hab L)
      set S := ∑ l ∈ Finset.range (L + 1), pz ((p.pos ⬝ᵥ s.pos) / modulus s.pos) (modulus p.pos ^ 2) l *
        (1 / modulus s.pos) ^ l / modulus s.pos
      have e : ((-4 * Real.pi * BIG_G : ℝ) : ℂ) * ((p.mass : ℂ) * s.mass * ((1 / (4 * Real.pi) * S : ℝ) : ℂ)) -
          ((-(BIG_G * p.mass * s.mass) / dist3 p.pos s.pos : ℝ) : ℂ) =
          ((-(BIG_G * p.mass * s.mass) * (S - 1 / dist3 p.pos s.pos) : ℝ) : ℂ) := by
        have hpi : (Real.pi : ℂ) ≠ 0 := by exact_mod_cast Real.pi_ne_zero
        push_cast
        field_simp
        ring
      rw [e, Complex.norm_real, Real.norm_eq_abs, abs_mul, abs_neg, abs_mul, abs_mul]
      calc |BIG_G| * |p.mass| * |s.mass| * |S - 1 / dist3 p.pos s.pos|
          ≤ |BIG_G| * |p.mass| * |s.mass| * ((a / b) ^ (L + 1) / (b - a)) := by gcongr
        _ = _ := by ring
    · rw [List.sum_map_mul_left, absMass]; ring
  · rw [List.sum_map_mul_left, absMass, absMass]; ring

/-- C34: for separated arrays the multipole energies converge to the exact pair energy as the
degree grows. -/
theorem C34_energy_converges (A B : PtArray) (a b : ℝ) (hab : a < b) (h0 : ¬ OffAfterOrigin A)
    (hA : ∀ p ∈ A, modulus p.pos ≤ a) (hB : ∀ p ∈ B, b ≤ modulus p.pos) (ha : 0 ≤ a)
    (q : ∀ L, Mom L) (hq : ∀ L, qmoments L A = some (q L)) :
    Filter.Tendsto (fun L => multipoleEnergy BIG_G (q L) (Qmomentsb L B)) Filter.atTop
      (nhds (newtonEnergy A B : ℂ)) := by
  have hb : 0 < b := by linarith
  rw [tendsto_iff_norm_sub_tendsto_zero]
  have hlim : Filter.Tendsto (fun L : ℕ => |BIG_G| * absMass A * absMass B * ((a / b) ^ (L + 1) / (b - a)))
      Filter.atTop (nhds 0) := by
    have h1 : Filter.Tendsto (fun L : ℕ => (a / b) ^ (L + 1)) Filter.atTop (nhds 0) :=
      (tendsto_pow_atTop_nhds_zero_of_lt_one (by positivity) (by rwa [div_lt_one hb])).comp
        (Filter.tendsto_add_atTop_nat 1)
    have h2 := (h1.div_const (b - a)).const_mul (|BIG_G| * absMass A * absMass B)
    simpa using h2
  refine squeeze_zero (fun L => norm_nonneg _) ?_ hlim
  intro L
  obtain ⟨q', h1, h2⟩ := C34_error_bound L A B a b hab h0 hA hB ha
  rw [hq L, Option.some.injEq] at h1
  rw [h1]; exact h2

/-- non-vacuity of C34: a two-point body inside radius 2 and a point at distance 5 -/
example : ∃ (A B : PtArray) (a b : ℝ), a < b ∧ 0 ≤ a ∧ ¬ OffAfterOrigin A ∧
    (∀ p ∈ A, modulus p.pos ≤ a) ∧ (∀ p ∈ B, b ≤ modulus p.pos) ∧ newtonEnergy A B ≠ 0 := by
  refine ⟨[⟨1, ![1, 0, 0]⟩, ⟨2, ![0, 2, 0]⟩], [⟨3, ![0, 0, 5]⟩], 2, 5, by norm_num, by norm_num, ?_, ?_, ?_, ?_⟩
  · rw [← originLast_iff]
    refine ⟨_, [], (List.append_nil _).symm, ?_, by simp⟩
    intro p hp
    simp only [List.mem_cons, List.not_mem_nil, or_false] at hp
    rcases hp with rfl | rfl
    · exact fun h => by simpa using congrFun h 0
    · exact fun h => by simpa using congrFun h 1
  · intro p hp
    simp only [List.mem_cons, List.not_mem_nil, or_false] at hp
    rcases hp with rfl | rfl
    · simp [modulus]
    · simp [modulus, Real.sqrt_sq]
  · intro p hp
    simp only [List.mem_cons, List.not_mem_nil, or_false] at hp
    subst hp
    simp [modulus, Real.sqrt_sq]
  · have h1 : 0 < dist3 ![1, 0, 0] ![0, 0, 5] := by
      rw [dist3]; apply Real.sqrt_pos.2; simp [Fin.sum_univ_three]; norm_num
    have h2 : 0 < dist3 ![0, 2, 0] ![0, 0, 5] := by
      rw [dist3]; apply Real.sqrt_pos.2; simp [Fin.sum_univ_three]; norm_num
    have hG : 0 < BIG_G := by rw [BIG_G]; norm_num
    have : newtonEnergy [⟨1, ![1, 0, 0]⟩, ⟨2, ![0, 2, 0]⟩] [⟨3, ![0, 0, 5]⟩] < 0 := by
      simp only [newtonEnergy, List.map_cons, List.map_nil, List.sum_cons, List.sum_nil, add_zero, neg_div]
      have e1 := div_pos (by positivity : 0 < BIG_G * 1 * 3) h1
      have e2 := div_pos (by positivity : 0 < BIG_G * 2 * 3) h2
      linarith
    exact this.ne

end Newt
