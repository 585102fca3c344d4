import Verif.Model.RangeSolids
import Verif.Proofs.Range

/-! # A value that is not finite spoils what it enters -/

namespace Newt.Rng

/-- Neither part of a complex number is finite. -/
def CV.Bad (z : CV) : Prop := ¬ IsFin z.re ∧ ¬ IsFin z.im

theorem add_isFin {a b : FV} (h : IsFin (add a b)) : IsFin a ∧ IsFin b := by
  obtain ⟨x, hx⟩ := h
  cases a <;> cases b <;> simp only [add] at hx <;>
    first
    | exact ⟨⟨_, rfl⟩, ⟨_, rfl⟩⟩
    | (split_ifs at hx)
    | cases hx

theorem div_isFin {a b : FV} (h : IsFin (div a b)) : IsFin a := by
  obtain ⟨x, hx⟩ := h
  cases a <;> cases b <;> simp only [div] at hx <;>
    first
    | exact ⟨_, rfl⟩
    | cases hx

theorem neg_isFin {a : FV} (h : IsFin (neg a)) : IsFin a := by
  obtain ⟨x, hx⟩ := h
  cases a <;> simp only [neg] at hx
  · exact ⟨_, rfl⟩
  · cases hx
  · cases hx

theorem cadd_bad {a b : CV} (h : a.Bad ∨ b.Bad) : (cadd a b).Bad := by
  rcases h with h | h
  · exact ⟨fun k => h.1 (add_isFin k).1, fun k => h.2 (add_isFin k).1⟩
  · exact ⟨fun k => h.1 (add_isFin k).2, fun k => h.2 (add_isFin k).2⟩

/-- A factor whose real part is not finite spoils a product. -/
theorem cmul_bad {a b : CV} (h : ¬ IsFin a.re ∨ ¬ IsFin b.re) : (cmul a b).Bad := by
  rcases h with h | h
  · exact ⟨fun k => h (mul_isFin (add_isFin k).1).1, fun k => h (mul_isFin (add_isFin k).1).1⟩
  · exact ⟨fun k => h (mul_isFin (add_isFin k).1).2, fun k => h (mul_isFin (add_isFin k).2).2⟩

theorem cdivr_bad {a : CV} (r : FV) (h : a.Bad) : (cdivr a r).Bad := by
  rw [cdivr]
  split_ifs with hr
  · exact ⟨fun k => h.1 (div_isFin k), fun k => h.2 (div_isFin k)⟩
  · exact ⟨fun k => h.1 (add_isFin (mul_isFin k).1).1, fun k => h.2 (add_isFin (mul_isFin k).1).1⟩

theorem foldl_bad (l : List CV) : ∀ z : CV, (z.Bad ∨ ∃ t ∈ l, t.Bad) → (l.foldl cadd z).Bad := by
  induction l with
  | nil =>
    intro z h
    rcases h with h | ⟨t, ht, -⟩
    · exact h
    · cases ht
  | cons t l ih =>
    intro z h
    rw [List.foldl_cons]
    refine ih _ ?_
    rcases h with h | ⟨s, hs, hb⟩
    · exact Or.inl (cadd_bad (Or.inl h))
    · rcases List.mem_cons.1 hs with rfl | hs
      · exact Or.inl (cadd_bad (Or.inr hb))
      · exact Or.inr ⟨s, hs, hb⟩

/-- The root of the exponential of a logarithm. -/
theorem root_exp (g P : ℝ) (hP : Real.exp g = P) (h1 : 1 ≤ P) :
    (IsFin (sqrt (exp g)) ↔ P < OVER) ∧ (P < OVER → sqrt (exp g) = .fin (Real.sqrt P)) := by
  have h0 : 0 < P := by linarith
  have hu : UNDER < |P| := by
    rw [abs_of_pos h0]
    refine lt_of_lt_of_le (under_lt (x := 1) ?_) h1
    exact (div_le_one (by positivity)).2 (one_le_pow₀ (by norm_num))
  have key : P < OVER → sqrt (exp g) = .fin (Real.sqrt P) := by
    intro h
    rw [exp, hP, rnd_fin (by rwa [abs_of_pos h0]) hu, sqrt_fin h0.le]
  refine ⟨⟨fun h => ?_, fun h => ⟨_, key h⟩⟩, key⟩
  by_contra hn
  have := sqrt_isFin h
  rw [exp, hP, rnd_over (not_lt.1 hn)] at this
  obtain ⟨x, hx⟩ := this
  cases hx

end Newt.Rng
