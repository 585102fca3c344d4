import Verif.Proofs.BipolarBody
import Verif.Props.Shapes

/-!
# C61, C62: the multipole energy of arbitrary bodies

C34 is about point arrays.  Here the two bodies are arbitrary signed mass distributions (uniform
solids, points, combinations with holes).
-/

namespace Newt

open Spec MeasureTheory

/-- C61 (error bound): a body within radius `a` and a body outside radius `D > a`. -/
theorem C61_error (L : ℕ) (b c : Body) (a D : ℝ) (ha : 0 ≤ a) (h : a < D) (hb : b.InBall a) (hc : c.OffBall D) :
    ‖multipoleEnergy BIG_G (Mom.ofFn L b.inner) (Mom.ofFn L c.outer) - (b.energy BIG_G c : ℂ)‖ ≤
      |BIG_G| * b.absMass * c.absMass * ((a / D) ^ (L + 1) / (D - a)) :=
  body_energy_error L BIG_G b c a D ha h hb hc

/-- C61: the multipole energies of two separated bodies converge to `-G ∬ dm dm' / |x - y|`. -/
theorem C61_converges (b c : Body) (a D : ℝ) (ha : 0 ≤ a) (h : a < D) (hb : b.InBall a) (hc : c.OffBall D) :
    Filter.Tendsto (fun L => multipoleEnergy BIG_G (Mom.ofFn L b.inner) (Mom.ofFn L c.outer)) Filter.atTop
      (nhds (b.energy BIG_G c : ℂ)) := by
  have hD : 0 < D := by linarith
  rw [tendsto_iff_norm_sub_tendsto_zero]
  have h1 : Filter.Tendsto (fun L : ℕ => (a / D) ^ (L + 1)) Filter.atTop (nhds 0) :=
    (tendsto_pow_atTop_nhds_zero_of_lt_one (by positivity) (by rwa [div_lt_one hD])).comp
      (Filter.tendsto_add_atTop_nat 1)
  have h2 := (h1.div_const (D - a)).const_mul (|BIG_G| * b.absMass * c.absMass)
  rw [zero_div, mul_zero] at h2
  exact squeeze_zero (fun L => norm_nonneg _) (fun L => C61_error L b c a D ha h hb hc) h2

/-- A compact set of points, all within radius `a`, filled with mass. -/
theorem solid_inBall (mass : ℝ) (S : Set V3) (hS : IsCompact S) (a : ℝ) (h : ∀ v ∈ S, modulus v ≤ a) :
    (Body.solid mass S hS).InBall a := by
  intro p hp
  simp only [Body.solid, List.mem_singleton] at hp
  subst hp
  have hm : MeasurableSet {v : V3 | a < modulus v} := (isOpen_lt continuous_const modulus_continuous).measurableSet
  change (volume.restrict S) _ = 0
  rw [Measure.restrict_apply hm]
  have : {v : V3 | a < modulus v} ∩ S = ∅ := by
    ext v
    simp only [Set.mem_inter_iff, Set.mem_setOf_eq, Set.mem_empty_iff_false, iff_false, not_and]
    intro h1 h2
    linarith [h v h2]
  rw [this, measure_empty]

/-- C61 with the toolkit's own routines: the annulus moments of `newt/qlm.py` paired with the outer
moments of `newt/pg2Multi.py` of a point array converge to the exact energy of the annulus in the field
of the points. -/
theorem C61_annulus_points (mass H Ri Ro phic phih : ℝ) (hH : 0 < H) (hRi : 0 ≤ Ri) (hR : Ri < Ro)
    (h0 : 0 < phih) (hpi : phih ≤ Real.pi) (B : PtArray) (D : ℝ) (hD : Real.sqrt (Ro ^ 2 + (H / 2) ^ 2) < D)
    (hB : ∀ p ∈ B, D ≤ modulus p.pos) (q : ∀ L, Mom L)
    (hq : ∀ L, Qlm.annulus L mass H Ri Ro phic phih = .ok (q L)) :
    Filter.Tendsto (fun L => multipoleEnergy BIG_G (q L) (Qmomentsb L B)) Filter.atTop
      (nhds ((Body.solid mass (prism H (sector Ri Ro phic phih))
        (prism_compact H _ (sector_compact Ri Ro phic phih))).energy BIG_G (Body.points B) : ℂ)) := by
  have hS := prism_compact H _ (sector_compact Ri Ro phic phih)
  have hD0 : 0 < D := lt_of_le_of_lt (Real.sqrt_nonneg _) hD
  have hoff : OffOrigin B := by
    intro p hp h
    have h1 := hB p hp
    rw [h, (modulus_eq_zero 0).2 rfl] at h1
    linarith
  have e1 : ∀ L, q L = Mom.ofFn L (Body.solid mass _ hS).inner := by
    intro L
    have h1 := hq L
    rw [C36_annulus L mass H Ri Ro phic phih hH hRi hR h0 hpi] at h1
    injection h1 with h1
    rw [← h1]
    apply Mom.ext_get
    intro l m hl hm
    rw [Mom.get_ofFn _ hl hm, Mom.get_ofFn _ hl hm, Body.inner_solid]
  have e2 : ∀ L, Qmomentsb L B = Mom.ofFn L (Body.points B).outer := by
    intro L
    rw [Qmomentsb_closed L _ hoff]
    apply Mom.ext_get
    intro l m hl hm
    rw [Mom.get_ofFn _ hl hm, Mom.get_ofFn _ hl hm, Body.outer_points]
  simp only [e1, e2]
  refine C61_converges _ _ _ D (Real.sqrt_nonneg _) hD (solid_inBall _ _ hS _ ?_) ((Body.points_offBall B D).2 hB)
  intro v hv
  obtain ⟨h1, h2, r, phi, hr1, hr2, -, -, hx, hy⟩ := hv
  simp only at hx hy
  unfold modulus
  apply Real.sqrt_le_sqrt
  rw [hx, hy]
  have e : (r * Real.cos phi) ^ 2 + (r * Real.sin phi) ^ 2 = r ^ 2 := by
    have := Real.cos_sq_add_sin_sq phi
    calc (r * Real.cos phi) ^ 2 + (r * Real.sin phi) ^ 2 = r ^ 2 * (Real.cos phi ^ 2 + Real.sin phi ^ 2) := by ring
      _ = r ^ 2 := by rw [this, mul_one]
  rw [e]
  have h3 : r ^ 2 ≤ Ro ^ 2 := by nlinarith
  have h4 : v 2 ^ 2 ≤ (H / 2) ^ 2 := by nlinarith
  linarith

/-- The hypotheses of `C61_annulus_points` hold for an annulus of radius 1 and height 2 and points at
distance 5 and 7. -/
example : (0 : ℝ) < 2 ∧ Real.sqrt (1 ^ 2 + (2 / 2) ^ 2) < (5 : ℝ) ∧
    (∀ p ∈ ([⟨1, ![5, 0, 0]⟩, ⟨2, ![0, 0, 7]⟩] : PtArray), (5 : ℝ) ≤ modulus p.pos) ∧
    ∃ q : ∀ L, Mom L, ∀ L, Qlm.annulus L 3 2 (1 / 2) 1 0 1 = .ok (q L) := by
  refine ⟨by norm_num, ?_, ?_, ?_⟩
  · rw [show (1 : ℝ) ^ 2 + (2 / 2) ^ 2 = 2 by norm_num]
    rw [Real.sqrt_lt' (by norm_num)]; norm_num
  · intro p hp
    simp only [List.mem_cons, List.not_mem_nil, or_false] at hp
    rcases hp with rfl | rfl
    · rw [modulus, show ((![5, 0, 0] : V3) 0 ^ 2 + (![5, 0, 0] : V3) 1 ^ 2 + (![5, 0, 0] : V3) 2 ^ 2) = 5 ^ 2 by
        simp, Real.sqrt_sq (by norm_num)]
    · rw [modulus, show ((![0, 0, 7] : V3) 0 ^ 2 + (![0, 0, 7] : V3) 1 ^ 2 + (![0, 0, 7] : V3) 2 ^ 2) = 7 ^ 2 by
        simp, Real.sqrt_sq (by norm_num)]
      norm_num
  · exact ⟨_, fun L => C36_annulus L 3 2 (1 / 2) 1 0 1 (by norm_num) (by norm_num) (by norm_num) (by norm_num)
      (by linarith [Real.pi_gt_three])⟩

/-! ## C62: both bodies described by inner moments about their own centres -/

/-- The energy of two bodies made of points is the energy of the point arrays. -/
theorem energy_points (A B : PtArray) : (Body.points A).energy BIG_G (Body.points B) = newtonEnergy A B := by
  simp only [Body.energy, Body.points, newtonEnergy, List.map_map, Function.comp_def, Piece.point]
  congr 1
  refine List.map_congr_left fun p _ => ?_
  congr 1
  refine List.map_congr_left fun s _ => ?_
  rw [integral_dirac, integral_dirac]
  have e : modulus (s.pos - p.pos) = dist3 p.pos s.pos := by
    rw [← modulus_neg]
    simp [dist3, modulus, Fin.sum_univ_three]
  rw [e]; ring

/-- C62 (error bound): the inner moments of `b` (radius `a`) paired with the inner moments of `c`
(radius `r`) translated by `translate_q2Q` to a displacement `d`, `|d| > a + r`. -/
theorem C62_error (L : ℕ) (b c : Body) (d : V3) (a r : ℝ) (ha : 0 ≤ a) (hr : 0 ≤ r) (h : a + r < modulus d)
    (hb : b.InBall a) (hc : c.InBall r) :
    ∃ Q, translate_q2Q (Mom.ofFn L c.inner) d = some Q ∧
      ‖multipoleEnergy BIG_G (Mom.ofFn L b.inner) Q - (b.energy BIG_G (c.translate d) : ℂ)‖ ≤
        |BIG_G| * b.absMass * c.absMass * (4 * Real.pi *
          ((L + 1) * (2 * L + 3) ^ 2 * (2 * L + 3) *
              (((a + r) / modulus d) ^ L * ((a + r) / (modulus d - (a + r)) ^ 2)) +
            (L + 1) ^ 2 * ((2 * L + 1) ^ 4 * (4 * (4 * L + 1))) *
              (((a + r) / modulus d) ^ (L + 1) / modulus d))) := by
  have hd : d ≠ 0 := by
    intro h0
    rw [h0, (modulus_eq_zero 0).2 rfl] at h
    linarith
  refine ⟨_, translate_q2Q_closed _ d hd, ?_⟩
  have := bip_body_error L BIG_G b c d a r h hb hc
  simpa [bipErr, remFac] using this

/-- C62: as the degree grows, the energy computed from two sets of inner moments with
`translate_q2Q` converges to the exact energy of the first body in the field of the displaced second
body, provided the displacement exceeds the sum of the two radii. -/
theorem C62_converges (b c : Body) (d : V3) (a r : ℝ) (ha : 0 ≤ a) (hr : 0 ≤ r) (h : a + r < modulus d)
    (hb : b.InBall a) (hc : c.InBall r) (Q : ∀ L, Mom L)
    (hQ : ∀ L, translate_q2Q (Mom.ofFn L c.inner) d = some (Q L)) :
    Filter.Tendsto (fun L => multipoleEnergy BIG_G (Mom.ofFn L b.inner) (Q L)) Filter.atTop
      (nhds (b.energy BIG_G (c.translate d) : ℂ)) := by
  have hd : d ≠ 0 := by
    intro h0
    rw [h0, (modulus_eq_zero 0).2 rfl] at h
    linarith
  have hQ' : ∀ L, Q L = Mom.ofFn L (trQ (Mom.ofFn L c.inner) d) := by
    intro L
    have := hQ L
    rw [translate_q2Q_closed _ d hd, Option.some.injEq] at this
    exact this.symm
  rw [tendsto_iff_norm_sub_tendsto_zero]
  have h2 := (bipErr_tendsto (add_nonneg ha hr) h).const_mul (|BIG_G| * b.absMass * c.absMass)
  rw [mul_zero] at h2
  refine squeeze_zero (fun L => norm_nonneg _) (fun L => ?_) h2
  rw [hQ' L]
  exact bip_body_error L BIG_G b c d a r h hb hc

/-- C62 for point arrays, in terms of the API alone. -/
theorem C62_points (A B : PtArray) (hA0 : ¬ OffAfterOrigin A) (hB0 : ¬ OffAfterOrigin B) (d : V3) (a r : ℝ)
    (ha : 0 ≤ a) (hr : 0 ≤ r) (h : a + r < modulus d) (hA : ∀ p ∈ A, modulus p.pos ≤ a)
    (hB : ∀ p ∈ B, modulus p.pos ≤ r) (q s Q : ∀ L, Mom L) (hq : ∀ L, qmoments L A = some (q L))
    (hs : ∀ L, qmoments L B = some (s L)) (hQ : ∀ L, translate_q2Q (s L) d = some (Q L)) :
    Filter.Tendsto (fun L => multipoleEnergy BIG_G (q L) (Q L)) Filter.atTop
      (nhds (newtonEnergy A (translate_point_array B d) : ℂ)) := by
  have key : ∀ (A : PtArray), ¬ OffAfterOrigin A → ∀ (q : ∀ L, Mom L), (∀ L, qmoments L A = some (q L)) →
      ∀ L, q L = Mom.ofFn L (Body.points A).inner := by
    intro A h0 q hq L
    have := hq L
    rw [qmoments_closed L A (Or.inr ((originLast_iff A).2 h0)), Option.some.injEq] at this
    rw [← this]
    apply Mom.ext_get
    intro l m hl hm
    rw [Mom.get_ofFn _ hl hm, Mom.get_ofFn _ hl hm, Body.inner_points]
  have h1 := C62_converges (Body.points A) (Body.points B) d a r ha hr h ((Body.points_inBall A a).2 hA)
    ((Body.points_inBall B r).2 hB) Q (fun L => by rw [← key B hB0 s hs L]; exact hQ L)
  have e : (Body.points A).energy BIG_G ((Body.points B).translate d) =
      newtonEnergy A (translate_point_array B d) := by
    rw [← energy_points, energy_translate]
    simp only [Body.energy, Body.points, List.map_map, Function.comp_def, Piece.point, translate_point_array,
      translate_point, integral_dirac]
  rw [e] at h1
  simpa only [key A hA0 q hq] using h1

/-- The hypotheses of `C62_points` hold for two dumbbells of radius 1 displaced by 5. -/
example : ∃ A B : PtArray, A ≠ [] ∧ B ≠ [] ∧ ¬ OffAfterOrigin A ∧ ¬ OffAfterOrigin B ∧ (1 : ℝ) + 1 < modulus ![5, 0, 0] ∧
    (∀ p ∈ A, modulus p.pos ≤ 1) ∧ (∀ p ∈ B, modulus p.pos ≤ 1) := by
  have h0 : ¬ OffAfterOrigin ([⟨1, ![1, 0, 0]⟩, ⟨2, ![-1, 0, 0]⟩] : PtArray) := by
    rintro ⟨i, j, p, q, hij, hi, hj, hp, hq⟩
    have := List.mem_of_getElem? hi
    simp only [List.mem_cons, List.not_mem_nil, or_false] at this
    rcases this with rfl | rfl
    · have := congrFun hp 0; simp at this
    · have := congrFun hp 0; simp at this
  refine ⟨[⟨1, ![1, 0, 0]⟩, ⟨2, ![-1, 0, 0]⟩], [⟨1, ![1, 0, 0]⟩, ⟨2, ![-1, 0, 0]⟩], by simp, by simp, h0, h0, ?_, ?_, ?_⟩
  · rw [modulus, show ((![5, 0, 0] : V3) 0 ^ 2 + (![5, 0, 0] : V3) 1 ^ 2 + (![5, 0, 0] : V3) 2 ^ 2) = 5 ^ 2 by
        simp, Real.sqrt_sq (by norm_num)]
    norm_num
  all_goals
    intro p hp
    simp only [List.mem_cons, List.not_mem_nil, or_false] at hp
    rcases hp with rfl | rfl <;> simp [modulus]

end Newt
