import Verif.Model.GlibPlot
import Verif.Props.Glib

/-!
# C116: what `display_points` shows
-/

namespace Newt

open Plot

/-- C116: in the default mode the markers labelled `(+) mass1` are exactly the points of positive mass, those labelled `(-) mass1` exactly the
points of negative mass, all of size 50 (and likewise for `mass2`); points of zero mass are not drawn. -/
theorem C116_signs (pm1 pm2 : PtArray) (v : V3) (s : ℝ) :
    ((v, s) ∈ (display_points pm1 pm2 false).plus1 ↔ s = 50 ∧ ∃ p ∈ pm1, 0 < p.mass ∧ p.pos = v) ∧
    ((v, s) ∈ (display_points pm1 pm2 false).minus1 ↔ s = 50 ∧ ∃ p ∈ pm1, p.mass < 0 ∧ p.pos = v) ∧
    ((v, s) ∈ (display_points pm1 pm2 false).plus2 ↔ s = 50 ∧ ∃ p ∈ pm2, 0 < p.mass ∧ p.pos = v) ∧
    ((v, s) ∈ (display_points pm1 pm2 false).minus2 ↔ s = 50 ∧ ∃ p ∈ pm2, p.mass < 0 ∧ p.pos = v) := by
  simp only [display_points, groups, scatter, Bool.false_eq_true, if_false, List.mem_map, List.mem_filter, decide_eq_true_eq, Prod.mk.injEq]
  refine ⟨⟨?_, ?_⟩, ⟨?_, ?_⟩, ⟨?_, ?_⟩, ⟨?_, ?_⟩⟩
  all_goals first
    | (rintro ⟨p, ⟨hp, hm⟩, h1, h2⟩; exact ⟨h2.symm, p, hp, hm, h1⟩)
    | (rintro ⟨h2, p, hp, hm, h1⟩; exact ⟨p, ⟨hp, hm⟩, h1, h2.symm⟩)

/-- The number of markers of both groups, in either mode. -/
theorem C116_count (pm : PtArray) (b : Bool) :
    (groups pm b).1.length + (groups pm b).2.length = (pm.filter fun p => decide (p.mass ≠ 0)).length := by
  cases b
  · simp only [groups, scatter, Bool.false_eq_true, if_false, List.length_map]
    change _ = (pm.filter fun p => decide (¬ p.mass = 0)).length
    induction pm with
    | nil => rfl
    | cons p pm ih =>
      rcases lt_trichotomy p.mass 0 with h | h | h
      · simp only [List.filter_cons, h, h.ne, not_lt.2 h.le, decide_true, decide_false, if_true, Bool.false_eq_true, if_false, ne_eq,
          not_false_eq_true, List.length_cons]
        omega
      · simpa [List.filter_cons, h] using ih
      · simp only [List.filter_cons, h, h.ne', not_lt.2 h.le, decide_true, decide_false, if_true, Bool.false_eq_true, if_false, ne_eq,
          not_false_eq_true, List.length_cons]
        omega
  · simp [groups, scatter]

/-- C116: every point of nonzero mass gets exactly one marker, in either mode: the numbers of markers in the two groups of an array add up to
the number of its points with nonzero mass. -/
theorem C116_each_once (pm1 pm2 : PtArray) (b : Bool) :
    (display_points pm1 pm2 b).plus1.length + (display_points pm1 pm2 b).minus1.length =
      (pm1.filter fun p => decide (p.mass ≠ 0)).length ∧
    (display_points pm1 pm2 b).plus2.length + (display_points pm1 pm2 b).minus2.length =
      (pm2.filter fun p => decide (p.mass ≠ 0)).length :=
  ⟨C116_count pm1 b, C116_count pm2 b⟩

/-- C116: with `scale_mass` there is no `(-)` group: every nonzero mass, positive or negative, is labelled `(+)`, with a size proportional to
the signed mass times the number of points. -/
theorem C116_scaled (pm1 pm2 : PtArray) (v : V3) (s : ℝ) :
    (display_points pm1 pm2 true).minus1 = [] ∧ (display_points pm1 pm2 true).minus2 = [] ∧
    ((v, s) ∈ (display_points pm1 pm2 true).plus1 ↔ ∃ p ∈ pm1, p.mass ≠ 0 ∧ p.pos = v ∧ s = 100 * pm1.length * p.mass) ∧
    ((v, s) ∈ (display_points pm1 pm2 true).plus2 ↔ ∃ p ∈ pm2, p.mass ≠ 0 ∧ p.pos = v ∧ s = 100 * pm2.length * p.mass) := by
  simp only [display_points, groups, scatter, if_true, List.mem_map, List.mem_filter, decide_eq_true_eq, Prod.mk.injEq, true_and]
  refine ⟨⟨?_, ?_⟩, ⟨?_, ?_⟩⟩
  all_goals first
    | (rintro ⟨p, ⟨hp, hm⟩, h1, h2⟩; exact ⟨p, hp, hm, h1, h2.symm⟩)
    | (rintro ⟨p, hp, hm, h1, h2⟩; exact ⟨p, ⟨hp, hm⟩, h1, h2.symm⟩)

/-- C116 (finding): with `scale_mass` a point of negative mass asks for a marker of negative size in the `(+)` group. -/
theorem C116_negative_size (pm1 pm2 : PtArray) (p : Pt) (hp : p ∈ pm1) (hm : p.mass < 0) :
    ∃ s < 0, (p.pos, s) ∈ (display_points pm1 pm2 true).plus1 := by
  refine ⟨100 * pm1.length * p.mass, ?_, ((C116_scaled pm1 pm2 p.pos _).2.2.1).2 ⟨p, hp, hm.ne, rfl, rfl⟩⟩
  have : 0 < pm1.length := List.length_pos_of_mem hp
  have : (0 : ℝ) < pm1.length := by exact_mod_cast this
  nlinarith

/-- C116: rotating, translating or rescaling the sources never changes which group a point belongs to: the two groups have as many markers
after `translate_point_array` and `rotate_point_array` as before. -/
theorem C116_moved (pm : PtArray) (b : Bool) (d v : V3) (t : ℝ) (hv : v ≠ 0) (pm' : PtArray) (h : rotate_point_array pm t v = some pm') :
    (groups (translate_point_array pm d) b).1.length = (groups pm b).1.length ∧
    (groups (translate_point_array pm d) b).2.length = (groups pm b).2.length ∧
    (groups pm' b).1.length = (groups pm b).1.length ∧ (groups pm' b).2.length = (groups pm b).2.length := by
  have key : ∀ (f : Pt → Pt), (∀ p, (f p).mass = p.mass) →
      (groups (pm.map f) b).1.length = (groups pm b).1.length ∧ (groups (pm.map f) b).2.length = (groups pm b).2.length := by
    intro f hf
    cases b <;> simp [groups, scatter, List.filter_map, Function.comp_def, hf]
  have h1 := key (translate_point d) fun p => rfl
  have h2 : ∃ f : Pt → Pt, (∀ p, (f p).mass = p.mass) ∧ pm' = pm.map f := by
    rw [rotate_some hv, Option.some.injEq] at h
    exact ⟨fun p => ⟨p.mass, rotF t v p.pos⟩, fun p => rfl, h.symm⟩
  obtain ⟨f, hf, rfl⟩ := h2
  exact ⟨h1.1, h1.2, key f hf⟩

/-- A dumbbell of a positive and a negative mass with a massless marker: one marker in each group. -/
example : (display_points [⟨1, ![1, 0, 0]⟩, ⟨-1, ![-1, 0, 0]⟩, ⟨0, ![0, 0, 0]⟩] [] false).plus1 = [(![1, 0, 0], 50)] ∧
    (display_points [⟨1, ![1, 0, 0]⟩, ⟨-1, ![-1, 0, 0]⟩, ⟨0, ![0, 0, 0]⟩] [] false).minus1 = [(![-1, 0, 0], 50)] := by
  constructor <;> norm_num [display_points, groups, scatter, List.filter_cons]

end Newt
