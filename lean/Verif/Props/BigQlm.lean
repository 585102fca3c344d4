import Verif.Proofs.BigAnnGeom
import Verif.Proofs.MpcShapes
import Verif.Proofs.Pg2Multi2
import Verif.Props.Q2Q
import Verif.Props.TransRecurs
import Verif.Props.ShapesMake
import Verif.Props.QlmNum

/-!
# C65, C66: the closed-form outer moments of `newt/bigQlm.py`
-/

namespace Newt

open MeasureTheory Spec BigQlm

/-! ## C65: the sphere -/

/-- C65: `sphere` returns the outer moments of one point mass at the centre, with the mass of a
ball of the given density. -/
theorem C65_point (L : ℕ) (dens R x y z : ℝ) (h : ¬ (x = 0 ∧ y = 0 ∧ z = 0)) :
    sphere L dens R x y z = .ok (Mom.ofFn L (outerMoment [⟨dens * (4 / 3 * Real.pi * R ^ 3), ![x, y, z]⟩])) := by
  have hp : (⟨dens * (4 / 3 * Real.pi * R ^ 3), ![x, y, z]⟩ : Pt).pos ≠ 0 := by
    intro h0
    exact h ⟨congrFun h0 0, congrFun h0 1, congrFun h0 2⟩
  have hr := (rOf_ne_zero _).2 hp
  rw [sphere]
  simp only
  rw [if_neg (by simpa [rOf] using hr)]
  congr 1
  refine fill_gen L _ _ (outerMoment_neg _) (fun l m h => outerMoment_out _ _ _ h) ?_
  intro l m hm hl
  rw [outerMoment, List.map_cons, List.map_nil, List.sum_cons, List.sum_nil, add_zero,
    ← outerTerm_eq _ hp l m (by omega), outerTerm]
  simp only [phiOf, thetaOf, rOf, Matrix.cons_val_zero, Matrix.cons_val_one, Matrix.cons_val]
  congr 2
  push_cast
  ring

/-- C65: a sphere centred on the origin is refused. -/
theorem C65_origin (L : ℕ) (dens R : ℝ) : sphere L dens R 0 0 0 = .valueError := by
  rw [sphere]; simp

/-- C65: when the ball does not reach the origin, these are exactly the outer moments of the solid
ball (a ball attracts like a point, to every degree). -/
theorem C65_ball (L : ℕ) (dens R x y z : ℝ) (hR : 0 < R) (hout : R < modulus ![x, y, z]) :
    sphere L dens R x y z = .ok (Mom.ofFn L (densityOuter dens (ballAt R ![x, y, z]))) := by
  set c : V3 := ![x, y, z] with hc
  have hc0 : c ≠ 0 := by
    intro h
    rw [h, (modulus_eq_zero 0).2 rfl] at hout
    linarith
  rw [C65_point L dens R x y z (by
    rintro ⟨rfl, rfl, rfl⟩
    apply hc0
    rw [hc]; ext i; fin_cases i <;> rfl)]
  congr 1
  apply Mom.ext_get
  intro l m hl hm
  rw [Mom.get_ofFn _ hl hm, Mom.get_ofFn _ hl hm]
  set M := dens * (4 / 3 * Real.pi * R ^ 3) with hM
  set b := Body.solid M (ball R) (ball_compact R) with hb
  have hv := ball_vol R hR
  have hvol := ball_volume R hR.le
  have hin : ∀ K, Mom.ofFn K b.inner = Mom.ofFn K (innerMoment [⟨M, 0⟩]) := by
    intro K
    have e : b.inner = uniformMoment M (ball R) := by
      funext l m; exact Body.inner_solid M _ _ l m
    rw [e, ← C36_sphere K M R hR]
    apply Mom.ext_get
    intro l m hl hm
    rw [Qlm.sphere, Mom.get_ofFn _ hl hm, Mom.get_ofFn _ hl hm]
    simp only [innerMoment, List.map_cons, List.map_nil, List.sum_cons, List.sum_nil, add_zero]
    by_cases h0 : l = 0
    · subst h0
      by_cases h1 : m = 0
      · subst h1
        rw [if_pos ⟨rfl, rfl⟩, solidS_zero_zero, Nlm_zero]
        push_cast; ring
      · rw [if_neg (fun h => h1 h.2), solidS_out 0 m _ (by omega), mul_zero]
    · rw [if_neg (fun h => h0 h.1), solidS, Rsol_at_zero l h0]; simp
  have hball : b.InBall R := by
    intro p hp
    simp only [hb, Body.solid, List.mem_singleton] at hp
    subst hp
    rw [Measure.restrict_apply (measurableSet_lt measurable_const modulus_continuous.measurable)]
    convert measure_empty (μ := (volume : Measure V3)) using 2
    ext v
    simp only [Set.mem_inter_iff, Set.mem_setOf_eq, ball, Set.mem_empty_iff_false, iff_false, not_and, not_le]
    exact fun h => h
  have hlim := C59_converges b c R hR.le hout hball (fun K => Mom.ofFn K (outerMoment [⟨M, c⟩]))
    (fun K => by rw [hin, C49_q2Q_monopole K M c hc0]) l m
  have hconst : Filter.Tendsto (fun K => (Mom.ofFn K (outerMoment [⟨M, c⟩])).get l m) Filter.atTop
      (nhds (outerMoment [⟨M, c⟩] l m)) := by
    refine tendsto_const_nhds.congr' ?_
    filter_upwards [Filter.eventually_ge_atTop (max l m.natAbs)] with K hK
    rw [Mom.get_ofFn _ ((le_max_left _ _).trans hK) ((le_max_right _ _).trans hK)]
  rw [tendsto_nhds_unique hconst hlim]
  have e1 : (b.translate c).outer l m = (dens : ℂ) * ∫ v in ball R, solidO l m (v + c) := by
    simp only [hb, Body.solid, Body.translate, Body.outer, List.map_cons, List.map_nil, List.sum_cons, List.sum_nil,
      add_zero, Piece.move]
    rw [integral_map (φ := fun v : V3 => v + c) (continuous_id.add continuous_const).measurable.aemeasurable
      (measurable_solidO l m).aestronglyMeasurable]
    congr 2
    rw [hvol, hM, mul_div_cancel_right₀ _ (by rw [← hvol]; exact hv.ne')]
  have e2 : ballAt R c = (fun v : V3 => v + c) '' ball R := by
    ext v
    constructor
    · intro h; exact ⟨v - c, h, sub_add_cancel v c⟩
    · rintro ⟨w, hw, rfl⟩
      simpa [ballAt, ball] using hw
  rw [e1, densityOuter, e2, (measurePreserving_add_right (volume : Measure V3) c).setIntegral_image_emb
    (MeasurableEquiv.addRight c).measurableEmbedding]

example : ∃ Q, sphere 3 2 1 3 0 4 = .ok Q ∧ Q = Mom.ofFn 3 (densityOuter 2 (ballAt 1 ![3, 0, 4])) :=
  ⟨_, C65_ball 3 2 1 3 0 4 one_pos (by
    rw [modulus]
    apply Real.lt_sqrt_of_sq_lt
    simp only [Matrix.cons_val_zero, Matrix.cons_val_one, Matrix.cons_val]; norm_num), rfl⟩

/-! ## C66: the annular section -/

theorem fill_get_pos (L : ℕ) (val : ℕ → ℕ → ℂ) (l m : ℕ) (hl : l ≤ L) (hm : m ≤ l) (h0 : 0 < m) :
    (Qlm.fill L val).get l m = val l m := by
  rw [Qlm.fill, Mom.get_fillNeg _ hl (by omega), Mom.get_ofFn _ hl (by omega), Mom.get_ofFn _ hl (by omega)]
  simp only
  rw [if_neg (by omega), if_pos ⟨by omega, by omega⟩, if_neg (by omega)]
  simp

theorem fill_get_zero (L : ℕ) (val : ℕ → ℕ → ℂ) (l : ℕ) (hl : l ≤ L) (hre : (starRingEnd ℂ) (val l 0) = val l 0) :
    (Qlm.fill L val).get l 0 = val l 0 := by
  rw [Qlm.fill, Mom.get_fillNeg _ hl (by simp), Mom.get_ofFn _ hl (by simp), Mom.get_ofFn _ hl (by simp)]
  simp [hre]

theorem fill_get_neg (L : ℕ) (val : ℕ → ℕ → ℂ) (l m : ℕ) (hl : l ≤ L) (hm : m ≤ l) (h0 : 0 < m) :
    (Qlm.fill L val).get l (-(m : ℤ)) = (-1) ^ m * (starRingEnd ℂ) (val l m) := by
  rw [Qlm.fill, Mom.get_fillNeg _ hl (by omega), Mom.get_ofFn _ hl (by omega), Mom.get_ofFn _ hl (by omega)]
  simp only [neg_neg]
  rw [if_neg (by omega), if_neg (by omega), if_pos ⟨by omega, by omega⟩]
  simp only [Int.toNat_natCast, Int.natAbs_neg, Int.natAbs_natCast]
  ring

/-- What a successful call of `annulus` holds in its cells. -/
theorem annulus_cells (LMax : ℕ) (dens H r0 r1 phic phih : ℝ) (hH : H ≠ 0) (h0 : 0 < r0) (h1 : r0 ≤ r1) (hp : 0 < phih)
    (hpi : phih ≤ Real.pi) :
    ∃ Q, annulus LMax dens H r0 r1 phic phih = .ok Q ∧ ∀ l m : ℕ, m ≤ l → l ≤ LMax →
      Q.get l m = ((annCell dens (Real.sign H) |H| r0 r1 phih l m : ℝ) : ℂ) * Complex.exp (-Complex.I * m * phic) ∧
      Q.get l (-(m : ℤ)) = (-1) ^ m * (starRingEnd ℂ) (Q.get l m) := by
  rw [annulus]
  simp only
  rw [if_neg (by push Not; exact ⟨hH, h1, by linarith, h0.le, hp, hpi⟩), if_neg h0.ne']
  refine ⟨_, rfl, fun l m hm hl => ?_⟩
  have hL : l ≤ if LMax < 5 then 5 else LMax := by split_ifs <;> omega
  have e1 : ∀ k : ℤ, k.natAbs ≤ l → ∀ f : ℕ → ℤ → ℂ, (Mom.ofFn LMax f).get l k = f l k := fun k hk f =>
    Mom.get_ofFn _ hl (by omega)
  rw [e1 m (by omega), e1 (-m) (by omega)]
  rcases Nat.eq_zero_or_pos m with rfl | hm0
  · have : (Qlm.fill (if LMax < 5 then 5 else LMax) fun l m =>
        ((annCell dens (Real.sign H) |H| r0 r1 phih l m : ℝ) : ℂ) * Complex.exp (-Complex.I * m * phic)).get l 0 =
        ((annCell dens (Real.sign H) |H| r0 r1 phih l 0 : ℝ) : ℂ) * Complex.exp (-Complex.I * ((0 : ℕ) : ℂ) * phic) :=
      fill_get_zero _ _ l hL (by simp)
    simp only [Nat.cast_zero, neg_zero, pow_zero, one_mul] at this ⊢
    rw [this]
    refine ⟨rfl, ?_⟩
    simp
  · rw [fill_get_pos _ _ l m hL hm hm0, fill_get_neg _ _ l m hL hm hm0]
    exact ⟨rfl, rfl⟩

theorem section_phase (dens H r0 r1 phic phih : ℝ) (l m : ℕ) (hm : m ≤ l) (hH : H ≠ 0) (h0 : 0 < r0) (h1 : r0 ≤ r1)
    (hp : 0 < phih) (hpi : phih ≤ Real.pi) :
    densityOuter dens (documentedSection H r0 r1 phic phih) l m =
      ((dens * annVal l m (Real.sign H) |H| r0 r1 phih : ℝ) : ℂ) * Complex.exp (Complex.I * m * phic) := by
  rw [documentedSection, densityOuter_sector, ann_outer0 l m hm dens H r0 r1 phih hH h0 h1 hp hpi]
  push_cast
  ring

theorem sign_or (H : ℝ) (hH : H ≠ 0) : Real.sign H = 1 ∨ Real.sign H = -1 := by
  rcases lt_or_gt_of_ne hH with h | h
  · exact Or.inr (Real.sign_of_neg h)
  · exact Or.inl (Real.sign_of_pos h)

theorem annCell_good (dens s H r0 r1 phih : ℝ) (hs : s = 1 ∨ s = -1) (hH : 0 < H) (h0 : 0 < r0) (h1 : r0 ≤ r1) (l m : ℕ)
    (hm : m ≤ l) (hl : l ≤ 5) (h20 : ¬ (l = 2 ∧ m = 0)) (h53 : ¬ (l = 5 ∧ m = 3)) :
    annCell dens s H r0 r1 phih l m = dens * annVal l m s H r0 r1 phih := by
  interval_cases l <;> interval_cases m
  · exact annCell_00 dens s H r0 r1 phih hs hH h0 h1
  · exact annCell_10 dens s H r0 r1 phih hs hH h0 h1
  · exact annCell_11 dens s H r0 r1 phih hs hH h0 h1
  · exact absurd ⟨rfl, rfl⟩ h20
  · exact annCell_21 dens s H r0 r1 phih hs hH h0 h1
  · exact annCell_22 dens s H r0 r1 phih hs hH h0 h1
  · exact annCell_30 dens s H r0 r1 phih hs hH h0 h1
  · exact annCell_31 dens s H r0 r1 phih hs hH h0 h1
  · exact annCell_32 dens s H r0 r1 phih hs hH h0 h1
  · exact annCell_33 dens s H r0 r1 phih hs hH h0 h1
  · exact annCell_40 dens s H r0 r1 phih hs hH h0 h1
  · exact annCell_41 dens s H r0 r1 phih hs hH h0 h1
  · exact annCell_42 dens s H r0 r1 phih hs hH h0 h1
  · exact annCell_43 dens s H r0 r1 phih hs hH h0 h1
  · exact annCell_44 dens s H r0 r1 phih hs hH h0 h1
  · exact annCell_50 dens s H r0 r1 phih hs hH h0 h1
  · exact annCell_51 dens s H r0 r1 phih hs hH h0 h1
  · exact annCell_52 dens s H r0 r1 phih hs hH h0 h1
  · exact absurd ⟨rfl, rfl⟩ h53
  · exact annCell_54 dens s H r0 r1 phih hs hH h0 h1
  · exact annCell_55 dens s H r0 r1 phih hs hH h0 h1

/-- C66: up to degree 5, and except for the cells `(2, 0)` and `(5, ±3)`, the array holds the outer
moments of the section that faces the azimuth `-phic`.  With `phic = 0` (or for the cells with
`m = 0`, or a full ring) this is the documented section. -/
theorem C66_annulus (LMax : ℕ) (dens H r0 r1 phic phih : ℝ) (hH : H ≠ 0) (h0 : 0 < r0) (h1 : r0 ≤ r1) (hp : 0 < phih)
    (hpi : phih ≤ Real.pi) :
    ∃ Q, annulus LMax dens H r0 r1 phic phih = .ok Q ∧ ∀ (l : ℕ) (m : ℤ), m.natAbs ≤ l → l ≤ LMax → l ≤ 5 →
      ¬ (l = 2 ∧ m = 0) → ¬ (l = 5 ∧ m.natAbs = 3) →
      Q.get l m = densityOuter dens (documentedSection H r0 r1 (-phic) phih) l m := by
  obtain ⟨Q, hQ, hc⟩ := annulus_cells LMax dens H r0 r1 phic phih hH h0 h1 hp hpi
  refine ⟨Q, hQ, fun l m hm hl hl5 h20 h53 => ?_⟩
  have key : ∀ k : ℕ, k ≤ l → ¬ (l = 2 ∧ k = 0) → ¬ (l = 5 ∧ k = 3) →
      Q.get l k = densityOuter dens (documentedSection H r0 r1 (-phic) phih) l k := by
    intro k hk h20 h53
    rw [(hc l k hk hl).1, section_phase dens H r0 r1 (-phic) phih l k hk hH h0 h1 hp hpi,
      annCell_good dens _ |H| r0 r1 phih (sign_or H hH) (abs_pos.2 hH) h0 h1 l k hk hl5 h20 h53]
    congr 2
    push_cast; ring
  obtain ⟨k, rfl | rfl⟩ := Int.eq_nat_or_neg m
  · exact key k (by omega) (by omega) (by omega)
  · rw [(hc l k (by omega) hl).2, key k (by omega) (by omega) (by omega), densityOuter_neg]
    simp

/-- C66 (finding): the cell `(2, 0)` lacks the factor `|H|`. -/
theorem C66_annulus_20 (LMax : ℕ) (dens H r0 r1 phic phih : ℝ) (hH : H ≠ 0) (h0 : 0 < r0) (h1 : r0 ≤ r1) (hp : 0 < phih)
    (hpi : phih ≤ Real.pi) (hL : 2 ≤ LMax) :
    ∃ Q, annulus LMax dens H r0 r1 phic phih = .ok Q ∧
      ((|H| : ℝ) : ℂ) * Q.get 2 0 = densityOuter dens (documentedSection H r0 r1 phic phih) 2 0 := by
  obtain ⟨Q, hQ, hc⟩ := annulus_cells LMax dens H r0 r1 phic phih hH h0 h1 hp hpi
  refine ⟨Q, hQ, ?_⟩
  have a := (hc 2 0 (by norm_num) hL).1
  have b := section_phase dens H r0 r1 phic phih 2 0 (by norm_num) hH h0 h1 hp hpi
  simp only [Nat.cast_zero] at a b
  rw [a, b, ← annCell_20 dens _ |H| r0 r1 phih (sign_or H hH) (abs_pos.2 hH) h0 h1]
  push_cast
  simp

theorem ratio_lt (H r0 r1 : ℝ) (hH : 0 < H) (h0 : 0 < r0) (h1 : r0 < r1) :
    r0 ^ 7 / dd r0 H ^ 7 < r1 ^ 7 / dd r1 H ^ 7 := by
  have hr1 : 0 < r1 := h0.trans h1
  have hd0 := dd_pos r0 H h0
  have hd1 := dd_pos r1 H hr1
  rw [← div_pow, ← div_pow]
  refine pow_lt_pow_left₀ ?_ (by positivity) (by norm_num)
  rw [div_lt_div_iff₀ hd0 hd1]
  refine lt_of_pow_lt_pow_left₀ 2 (by positivity) ?_
  rw [mul_pow, mul_pow, dd_sq, dd_sq]
  have : r0 ^ 2 < r1 ^ 2 := pow_lt_pow_left₀ h1 h0.le (by norm_num)
  nlinarith [mul_pos hH hH]

/-- C66 (finding): the cell `(5, 3)` is off by a term that does not vanish (`7 H^2 + r^2` should
read `7 H^2 + 2 r^2`). -/
theorem C66_annulus_53 (LMax : ℕ) (dens H r0 r1 phic phih : ℝ) (hH : H ≠ 0) (h0 : 0 < r0) (h1 : r0 ≤ r1) (hp : 0 < phih)
    (hpi : phih ≤ Real.pi) (hL : 5 ≤ LMax) :
    ∃ Q, annulus LMax dens H r0 r1 phic phih = .ok Q ∧
      (Q.get 5 3 = densityOuter dens (documentedSection H r0 r1 (-phic) phih) 5 3
        - ((dens * Real.sqrt (11 / (35 * Real.pi)) / (16 * |H| ^ 3)
          * ((r1 / Real.sqrt (r1 ^ 2 + H ^ 2)) ^ 7 - (r0 / Real.sqrt (r0 ^ 2 + H ^ 2)) ^ 7)
          * Real.sin (3 * phih) / 3 : ℝ) : ℂ) * Complex.exp (-3 * Complex.I * phic)) ∧
      (dens ≠ 0 → r0 < r1 → Real.sin (3 * phih) ≠ 0 →
        Q.get 5 3 ≠ densityOuter dens (documentedSection H r0 r1 (-phic) phih) 5 3) := by
  obtain ⟨Q, hQ, hc⟩ := annulus_cells LMax dens H r0 r1 phic phih hH h0 h1 hp hpi
  have hdd : ∀ r, Real.sqrt (r ^ 2 + H ^ 2) = dd r |H| := fun r => by rw [dd, sq_abs]
  have key : Q.get 5 3 = densityOuter dens (documentedSection H r0 r1 (-phic) phih) 5 3
        - ((dens * Real.sqrt (11 / (35 * Real.pi)) / (16 * |H| ^ 3)
          * ((r1 / Real.sqrt (r1 ^ 2 + H ^ 2)) ^ 7 - (r0 / Real.sqrt (r0 ^ 2 + H ^ 2)) ^ 7)
          * Real.sin (3 * phih) / 3 : ℝ) : ℂ) * Complex.exp (-3 * Complex.I * phic) := by
    have a := (hc 5 3 (by norm_num) hL).1
    have b := section_phase dens H r0 r1 (-phic) phih 5 3 (by norm_num) hH h0 h1 hp hpi
    simp only [Nat.cast_ofNat] at a b
    rw [a, b, annCell_53 dens _ |H| r0 r1 phih (sign_or H hH) (abs_pos.2 hH) h0 h1, hdd, hdd, div_pow, div_pow]
    rw [show -Complex.I * 3 * (phic : ℂ) = -3 * Complex.I * phic by ring,
      show Complex.I * 3 * ((-phic : ℝ) : ℂ) = -3 * Complex.I * phic by push_cast; ring]
    push_cast
    ring
  refine ⟨Q, hQ, key, fun hd hr hs he => ?_⟩
  rw [key, sub_eq_self, mul_eq_zero] at he
  rcases he with he | he
  · have hH' := abs_pos.2 hH
    have h := ratio_lt |H| r0 r1 hH' h0 hr
    rw [hdd, hdd, div_pow, div_pow, Complex.ofReal_eq_zero] at he
    have hsq : 0 < Real.sqrt (11 / (35 * Real.pi)) := Real.sqrt_pos.2 (by positivity)
    have : dens * Real.sqrt (11 / (35 * Real.pi)) / (16 * |H| ^ 3)
        * (r1 ^ 7 / dd r1 |H| ^ 7 - r0 ^ 7 / dd r0 |H| ^ 7) * Real.sin (3 * phih) / 3 ≠ 0 := by
      have h3 : r1 ^ 7 / dd r1 |H| ^ 7 - r0 ^ 7 / dd r0 |H| ^ 7 ≠ 0 := by linarith [sub_pos.2 h] |> ne_of_gt
      have h4 : (16 * |H| ^ 3 : ℝ) ≠ 0 := by positivity
      exact div_ne_zero (mul_ne_zero (mul_ne_zero (div_ne_zero (mul_ne_zero hd hsq.ne') h4) h3) hs) (by norm_num)
    exact this he
  · exact Complex.exp_ne_zero _ he

/-- C66 (finding): a section that is not a full ring and does not face along `±x` is put on the wrong
side: already the cell `(1, 1)` is not that of the documented section. -/
theorem C66_annulus_wrong_side (LMax : ℕ) (dens H r0 r1 phic phih : ℝ) (hH : H ≠ 0) (h0 : 0 < r0) (h1 : r0 < r1)
    (hp : 0 < phih) (hpi : phih < Real.pi) (hL : 1 ≤ LMax) (hd : dens ≠ 0) (hs : Real.sin phic ≠ 0) :
    ∃ Q, annulus LMax dens H r0 r1 phic phih = .ok Q ∧
      Q.get 1 1 ≠ densityOuter dens (documentedSection H r0 r1 phic phih) 1 1 := by
  obtain ⟨Q, hQ, hc⟩ := annulus_cells LMax dens H r0 r1 phic phih hH h0 h1.le hp hpi.le
  refine ⟨Q, hQ, fun he => ?_⟩
  have a := (hc 1 1 le_rfl hL).1
  have b := section_phase dens H r0 r1 phic phih 1 1 le_rfl hH h0 h1.le hp hpi.le
  have hH' := abs_pos.2 hH
  have hr1 : 0 < r1 := h0.trans h1
  have hd0 := dd_pos r0 |H| h0
  have hd1 := dd_pos r1 |H| hr1
  have hne : annCell dens (Real.sign H) |H| r0 r1 phih 1 1 ≠ 0 := by
    simp only [annCell, cell11, ddswap]
    have hlt : dd r0 |H| < dd r1 |H| := by
      rw [dd, dd]
      exact Real.sqrt_lt_sqrt (by positivity) (by nlinarith)
    have hlog : 0 < Real.log ((r1 + dd r1 |H|) / (r0 + dd r0 |H|)) := by
      apply Real.log_pos
      rw [one_lt_div (by positivity)]
      linarith
    have hsq : 0 < Real.sqrt (3 / (2 * Real.pi)) := Real.sqrt_pos.2 (by positivity)
    exact mul_ne_zero (mul_ne_zero (mul_ne_zero (mul_ne_zero (neg_ne_zero.2 hd) hH'.ne') hsq.ne') hlog.ne')
      (Real.sin_pos_of_pos_of_lt_pi hp hpi).ne'
  simp only [Nat.cast_one] at a b
  rw [a, b, ← annCell_11 dens _ |H| r0 r1 phih (sign_or H hH) hH' h0 h1.le] at he
  have hx := mul_left_cancel₀ (by exact_mod_cast hne) he
  have him := congrArg Complex.im hx
  rw [show -Complex.I * 1 * (phic : ℂ) = ((-phic : ℝ) : ℂ) * Complex.I by push_cast; ring,
    show Complex.I * 1 * (phic : ℂ) = ((phic : ℝ) : ℂ) * Complex.I by ring,
    Complex.exp_ofReal_mul_I_im, Complex.exp_ofReal_mul_I_im, Real.sin_neg] at him
  exact hs (by linarith)

/-- C66 (finding): all the rows above degree 5 are filled with zeros. -/
theorem C66_annulus_above (LMax : ℕ) (dens H r0 r1 phic phih : ℝ) (hH : H ≠ 0) (h0 : 0 < r0) (h1 : r0 ≤ r1)
    (hp : 0 < phih) (hpi : phih ≤ Real.pi) :
    ∃ Q, annulus LMax dens H r0 r1 phic phih = .ok Q ∧
      ∀ (l : ℕ) (m : ℤ), 5 < l → l ≤ LMax → m.natAbs ≤ l → Q.get l m = 0 := by
  obtain ⟨Q, hQ, hc⟩ := annulus_cells LMax dens H r0 r1 phic phih hH h0 h1 hp hpi
  refine ⟨Q, hQ, fun l m h5 hl hm => ?_⟩
  have key : ∀ k : ℕ, annCell dens (Real.sign H) |H| r0 r1 phih l k = 0 := by
    intro k
    obtain ⟨j, rfl⟩ := Nat.exists_eq_add_of_le (show 6 ≤ l by omega)
    rw [show 6 + j = j + 6 by omega]
    simp only [annCell]
  obtain ⟨k, rfl | rfl⟩ := Int.eq_nat_or_neg m
  · rw [(hc l k (by omega) hl).1, key]; simp
  · rw [(hc l k (by omega) hl).2, (hc l k (by omega) hl).1, key]; simp

/-- C66: which arguments are refused, and which run into a division by zero. -/
theorem C66_annulus_refuses_iff (LMax : ℕ) (dens H r0 r1 phic phih : ℝ) :
    annulus LMax dens H r0 r1 phic phih = .valueError ↔
      H = 0 ∨ r1 < r0 ∨ r0 < 0 ∨ phih ≤ 0 ∨ Real.pi < phih := by
  rw [annulus]
  simp only
  by_cases h : H = 0 ∨ r1 < r0 ∨ r1 < 0 ∨ r0 < 0 ∨ phih ≤ 0 ∨ phih > Real.pi
  · rw [if_pos h]
    refine ⟨fun _ => ?_, fun _ => rfl⟩
    rcases h with h | h | h | h | h | h
    · exact Or.inl h
    · exact Or.inr (Or.inl h)
    · by_cases h0 : r0 < 0
      · exact Or.inr (Or.inr (Or.inl h0))
      · exact Or.inr (Or.inl (by linarith))
    · exact Or.inr (Or.inr (Or.inl h))
    · exact Or.inr (Or.inr (Or.inr (Or.inl h)))
    · exact Or.inr (Or.inr (Or.inr (Or.inr h)))
  · rw [if_neg h]
    have e : ¬ (H = 0 ∨ r1 < r0 ∨ r0 < 0 ∨ phih ≤ 0 ∨ Real.pi < phih) := fun hc => h (by tauto)
    simp only [e, iff_false]
    split_ifs <;> exact fun hc => by cases hc

/-- C66 (finding): a disc sector (`r0 = 0`) passes the checks and then divides by zero, although its
solid can be described by the same arguments in `qlm.annulus`. -/
theorem C66_annulus_disc (LMax : ℕ) (dens H r1 phic phih : ℝ) (hH : H ≠ 0) (h1 : 0 ≤ r1) (hp : 0 < phih)
    (hpi : phih ≤ Real.pi) : annulus LMax dens H 0 r1 phic phih = .zeroDivision := by
  rw [annulus]
  simp only
  rw [if_neg (by push Not; exact ⟨hH, h1, h1, le_rfl, hp, hpi⟩), if_pos trivial]

theorem cylShi_60 (z r : ℝ) : QlmNum.cylShi 6 0 z r = z ^ 6 / 720 - r ^ 2 * z ^ 4 / 96 + r ^ 4 * z ^ 2 / 128 - r ^ 6 / 2304 := by
  rw [cylShi_fact _ _ (by norm_num)]
  norm_num [Finset.sum_range_succ, Nat.factorial]
  ring

theorem annInt_60_neg (H r0 r1 : ℝ) (hH : 0 < H) (h0 : 0 < r0) (h1 : r0 < r1) (hthin : 10 * H ≤ r0) :
    annInt 6 0 H r0 r1 < 0 := by
  set I : ℝ → ℝ → ℝ := fun r z => -((max r r0) * QlmNum.cylShi 6 0 z (max r r0) / dd (max r r0) z ^ (2 * 6 + 1)) with hI
  have hmax : ∀ r, 0 < max r r0 := fun r => lt_max_of_lt_right h0
  have hIc : Continuous (Function.uncurry I) := by
    rw [hI]
    refine Continuous.neg (Continuous.div ?_ ?_ ?_)
    · have h2 : Continuous fun p : ℝ × ℝ => ((max p.1 r0, p.2) : ℝ × ℝ) := by fun_prop
      exact (by fun_prop : Continuous fun p : ℝ × ℝ => max p.1 r0).mul ((cylShi_continuous 6 0).comp h2)
    · have h2 : Continuous fun p : ℝ × ℝ => ((max p.1 r0, p.2) : ℝ × ℝ) := by fun_prop
      exact (dd_continuous.comp h2).pow _
    · intro p
      exact pow_ne_zero _ (dd_pos _ _ (hmax p.1)).ne'
  have hpos : ∀ r z, 0 < z → z < H → 0 < I r z := by
    intro r z hz hzH
    have hr := hmax r
    have hle : 10 * z ≤ max r r0 := by linarith [le_max_right r r0]
    have hd := dd_pos (max r r0) z hr
    simp only [hI]
    rw [← neg_div, ← mul_neg, cylShi_60]
    refine div_pos (mul_pos hr ?_) (by positivity)
    set R := max r r0
    have e1 : (10 * z) ^ 2 ≤ R ^ 2 := by gcongr
    have e2 : 100 * (R ^ 4 * z ^ 2) ≤ R ^ 6 := by nlinarith [pow_pos hr 4]
    have e3 : (10 * z) ^ 6 ≤ R ^ 6 := by gcongr
    have e4 : 0 ≤ R ^ 2 * z ^ 4 := by positivity
    have e5 : 0 < R ^ 6 := by positivity
    nlinarith
  have hin : ∀ r, 0 < ∫ z in (0 : ℝ)..H, I r z := fun r =>
    intervalIntegral.intervalIntegral_pos_of_pos_on
      ((hIc.comp (by fun_prop : Continuous fun z : ℝ => (r, z))).intervalIntegrable 0 H)
      (fun z hz => hpos r z hz.1 hz.2) hH
  have hpar : Continuous fun r => ∫ z in (0 : ℝ)..H, I r z :=
    intervalIntegral.continuous_parametric_intervalIntegral_of_continuous' hIc 0 H
  have hout := intervalIntegral.intervalIntegral_pos_of_pos_on (hpar.intervalIntegrable r0 r1) (fun r _ => hin r) h1
  have e : annInt 6 0 H r0 r1 = -∫ r in r0..r1, ∫ z in (0 : ℝ)..H, I r z := by
    rw [annInt, ← intervalIntegral.integral_neg]
    refine intervalIntegral.integral_congr fun r hr => ?_
    rw [Set.uIcc_of_le h1.le] at hr
    beta_reduce
    rw [← intervalIntegral.integral_neg]
    simp only [hI, max_eq_left hr.1, neg_neg]
  rw [e]; linarith

/-- C66 (finding): the zeros above degree 5 are wrong, e.g. the cell `(6, 0)` of every flat section. -/
theorem C66_annulus_above_wrong (LMax : ℕ) (dens H r0 r1 phic phih : ℝ) (hH : H ≠ 0) (h0 : 0 < r0) (h1 : r0 < r1)
    (hp : 0 < phih) (hpi : phih ≤ Real.pi) (hL : 6 ≤ LMax) (hd : dens ≠ 0) (hthin : 10 * |H| ≤ r0) :
    ∃ Q, annulus LMax dens H r0 r1 phic phih = .ok Q ∧ Q.get 6 0 = 0 ∧
      densityOuter dens (documentedSection H r0 r1 phic phih) 6 0 ≠ 0 := by
  obtain ⟨Q, hQ, hz⟩ := C66_annulus_above LMax dens H r0 r1 phic phih hH h0 h1.le hp hpi
  refine ⟨Q, hQ, hz 6 0 (by norm_num) hL (by norm_num), ?_⟩
  have b := section_phase dens H r0 r1 phic phih 6 0 (by norm_num) hH h0 h1.le hp hpi
  simp only [Nat.cast_zero] at b
  have hI := annInt_60_neg |H| r0 r1 (abs_pos.2 hH) h0 h1 hthin
  rw [b]
  refine mul_ne_zero ?_ (Complex.exp_ne_zero _)
  rw [Complex.ofReal_ne_zero, annVal, azim, if_pos rfl]
  have hN : 0 < Real.sqrt ((2 * (6 : ℕ) + 1) * QlmNum.gfac 6 0 / (4 * Real.pi)) := by
    refine Real.sqrt_pos.2 ?_
    rw [gfac_eq 6 0 (by norm_num)]
    positivity
  have hs : Real.sign H ^ (6 + 0) ≠ 0 := by
    rcases sign_or H hH with h | h <;> rw [h] <;> norm_num
  exact mul_ne_zero hd (mul_ne_zero (mul_ne_zero (mul_ne_zero (mul_ne_zero (by norm_num) hN.ne') (by positivity)) hs) hI.ne)

/-- C66: on the cells that are right, the closed forms agree with the numerical integration of
`bigQlmNum.annulus` (run with exact quadrature) for a section above the plane. -/
theorem C66_agrees_with_numeric (LMax : ℕ) (dens H r0 r1 phih : ℝ) (hH : 0 < H) (h0 : 0 < r0) (h1 : r0 ≤ r1)
    (hp : 0 < phih) (hpi : phih ≤ Real.pi) :
    ∃ Q P, annulus LMax dens H r0 r1 0 phih = .ok Q ∧ BigQlmNum.annulus LMax dens 0 H r0 r1 phih = .ok P ∧
      ∀ (l : ℕ) (m : ℤ), m.natAbs ≤ l → l ≤ LMax → l ≤ 5 → ¬ (l = 2 ∧ m = 0) → ¬ (l = 5 ∧ m.natAbs = 3) →
        Q.get l m = P.get l m := by
  obtain ⟨Q, hQ, hc⟩ := C66_annulus LMax dens H r0 r1 0 phih hH.ne' h0 h1 hp hpi
  refine ⟨Q, _, hQ, C64_annulus LMax dens 0 H r0 r1 phih hp hpi h0.le h1 (lt_of_lt_of_le h0 h1) hH.le (Or.inl h0), ?_⟩
  intro l m hm hl hl5 h20 h53
  rw [hc l m hm hl hl5 h20 h53, Mom.get_ofFn _ hl (by omega), documentedSection, neg_zero, min_eq_left hH.le,
    max_eq_right hH.le]

/-- A half ring below the plane, facing `-y`: a case of every hypothesis above. -/
example : ∃ Q, annulus 6 2 (-1 / 20) 1 2 (-Real.pi / 2) 1 = .ok Q ∧
    Q.get 3 (-2) = densityOuter 2 (documentedSection (-1 / 20) 1 2 (-(-Real.pi / 2)) 1) 3 (-2) ∧
    Q.get 1 1 ≠ densityOuter 2 (documentedSection (-1 / 20) 1 2 (-Real.pi / 2) 1) 1 1 ∧
    densityOuter 2 (documentedSection (-1 / 20) 1 2 (-Real.pi / 2) 1) 6 0 ≠ 0 := by
  have hpi : (1 : ℝ) < Real.pi := by linarith [Real.pi_gt_three]
  obtain ⟨Q, hQ, hc⟩ := C66_annulus 6 2 (-1 / 20) 1 2 (-Real.pi / 2) 1 (by norm_num) one_pos (by norm_num) one_pos hpi.le
  obtain ⟨Q', hQ', hw⟩ := C66_annulus_wrong_side 6 2 (-1 / 20) 1 2 (-Real.pi / 2) 1 (by norm_num) one_pos (by norm_num)
    one_pos hpi (by norm_num) (by norm_num) (by rw [neg_div, Real.sin_neg, Real.sin_pi_div_two]; norm_num)
  obtain ⟨-, -, -, h6⟩ := C66_annulus_above_wrong 6 2 (-1 / 20) 1 2 (-Real.pi / 2) 1 (by norm_num) one_pos (by norm_num)
    one_pos hpi.le (by norm_num) (by norm_num) (by rw [abs_of_neg (by norm_num)]; norm_num)
  rw [hQ] at hQ'
  cases hQ'
  exact ⟨Q, hQ, hc 3 (-2) (by norm_num) (by norm_num) (by norm_num) (by norm_num) (by norm_num), hw, h6⟩

end Newt
