import Verif.Props.Cad
import Verif.Proofs.BodyEnergy

/-!
# C77-C79: the sum of meshes, the drilled classes, the outer branches
-/

namespace Newt

open Spec MeasureTheory

/-! ## C77: adding meshes -/

theorem sum_fold (v : V3) (ms : List Mesh) (acc : Set V3) :
    v ∈ ms.foldl (fun acc m => if m.pmass then acc ∪ m.solid else acc \ m.solid) acc ↔
      (∃ pre m post, ms = pre ++ m :: post ∧ m.pmass = true ∧ v ∈ m.solid ∧ ∀ n ∈ post, v ∉ n.solid) ∨
        (v ∈ acc ∧ ∀ n ∈ ms, v ∉ n.solid) := by
  induction ms generalizing acc with
  | nil => simp
  | cons a ms ih =>
    rw [List.foldl_cons, ih]
    constructor
    · rintro (⟨pre, m, post, rfl, h⟩ | ⟨h1, h2⟩)
      · exact .inl ⟨a :: pre, m, post, rfl, h⟩
      · split_ifs at h1 with hp
        · rcases h1 with h1 | h1
          · by_cases ha : v ∈ a.solid
            · exact .inl ⟨[], a, ms, rfl, hp, ha, h2⟩
            · exact .inr ⟨h1, by simpa [ha] using h2⟩
          · exact .inl ⟨[], a, ms, rfl, hp, h1, h2⟩
        · exact .inr ⟨h1.1, by simpa [h1.2] using h2⟩
    · rintro (⟨pre, m, post, h, h1, h2, h3⟩ | ⟨h1, h2⟩)
      · cases pre with
        | nil =>
          simp only [List.nil_append, List.cons.injEq] at h
          obtain ⟨rfl, rfl⟩ := h
          right
          refine ⟨?_, h3⟩
          rw [if_pos h1]; exact .inr h2
        | cons b pre =>
          simp only [List.cons_append, List.cons.injEq] at h
          obtain ⟨rfl, rfl⟩ := h
          exact .inl ⟨pre, m, post, rfl, h1, h2, h3⟩
      · simp only [List.mem_cons, forall_eq_or_imp] at h2
        right
        refine ⟨?_, h2.2⟩
        split_ifs
        · exact .inl h1
        · exact ⟨h1, h2.1⟩

/-- C77: a point belongs to the sum of meshes exactly when the last mesh of the list that contains it has
positive mass, the first mesh counting as positive whatever its sign. -/
theorem C77_sum_mesh (m0 : Mesh) (ms : List Mesh) (v : V3) :
    v ∈ (Shape.sumMesh m0 ms).solid ↔
      (∃ pre m post, ms = pre ++ m :: post ∧ m.pmass = true ∧ v ∈ m.solid ∧ ∀ n ∈ post, v ∉ n.solid) ∨
        (v ∈ m0.solid ∧ ∀ n ∈ ms, v ∉ n.solid) := sum_fold v ms m0.solid

/-- C77: when the positive masses come first, the sum is the union of the positive meshes without the
negative ones. -/
theorem C77_positive_first (m0 : Mesh) (pos neg : List Mesh) (hp : ∀ m ∈ pos, m.pmass = true) (hn : ∀ m ∈ neg, m.pmass = false) :
    Shape.sumMesh m0 (pos ++ neg) =
      ⟨{v | (∃ m ∈ m0 :: pos, v ∈ m.solid) ∧ ∀ m ∈ neg, v ∉ m.solid}, true⟩ := by
  have : (Shape.sumMesh m0 (pos ++ neg)).solid = {v | (∃ m ∈ m0 :: pos, v ∈ m.solid) ∧ ∀ m ∈ neg, v ∉ m.solid} := by
    ext v
    rw [C77_sum_mesh]
    constructor
    · rintro (⟨pre, m, post, h, h1, h2, h3⟩ | ⟨h1, h2⟩)
      · have hm : m ∈ pos := by
          have : m ∈ pos ++ neg := by rw [h]; simp
          rcases List.mem_append.1 this with h | h
          · exact h
          · rw [hn m h] at h1; simp at h1
        refine ⟨⟨m, .tail _ hm, h2⟩, ?_⟩
        intro n hn'
        have hlen : n ∈ post := by
          rcases List.append_eq_append_iff.1 h with ⟨as, e1, e2⟩ | ⟨bs, e1, e2⟩
          · -- the positive list ends before `m`
            have : m ∈ neg := by rw [e2]; simp
            rw [hn m this] at h1; simp at h1
          · cases bs with
            | nil =>
              simp only [List.nil_append] at e2
              have : m ∈ neg := by rw [← e2]; simp
              rw [hn m this] at h1; simp at h1
            | cons b bs =>
              simp only [List.cons_append, List.cons.injEq] at e2
              rw [e2.2]; exact List.mem_append_right _ hn'
        exact h3 n hlen
      · exact ⟨⟨m0, .head _, h1⟩, fun n hn' => h2 n (List.mem_append_right _ hn')⟩
    · rintro ⟨⟨m, hm, hv⟩, h2⟩
      by_cases hex : ∃ m ∈ pos, v ∈ m.solid
      · left
        clear hm hv m
        have : ∃ pre m post, pos = pre ++ m :: post ∧ v ∈ m.solid ∧ ∀ n ∈ post, v ∉ n.solid := by
          clear hp
          induction pos with
          | nil => obtain ⟨m, hm, _⟩ := hex; simp at hm
          | cons a l ih =>
            by_cases h : ∃ m ∈ l, v ∈ m.solid
            · obtain ⟨pre, m, post, rfl, h'⟩ := ih h
              exact ⟨a :: pre, m, post, rfl, h'⟩
            · push Not at h
              obtain ⟨m, hm, hv⟩ := hex
              rcases List.mem_cons.1 hm with rfl | hm
              · exact ⟨[], m, l, rfl, hv, h⟩
              · exact absurd hv (h m hm)
        obtain ⟨pre, m, post, rfl, h3, h4⟩ := this
        refine ⟨pre, m, post ++ neg, by simp, hp m (by simp), h3, ?_⟩
        intro n hn'
        rcases List.mem_append.1 hn' with h | h
        · exact h4 n h
        · exact h2 n h
      · push Not at hex
        right
        rcases List.mem_cons.1 hm with rfl | hm
        · refine ⟨hv, fun n hn' => ?_⟩
          rcases List.mem_append.1 hn' with h | h
          · exact hex n h
          · exact h2 n h
        · exact absurd hv (hex m hm)
  rw [← this]; rfl

/-- C77: `Shape.add` puts exactly that sum into the receiver, and marks it positive. -/
theorem C77_add (s : Shape) (ts : List Shape) (m0 : Mesh) (ms : List Mesh)
    (hin : (∀ t ∈ s :: ts, t.inner = true) ∨ ∀ t ∈ s :: ts, t.inner = false)
    (h0 : s.mesh = some m0) (hs : ts.map Shape.mesh = ms.map some) :
    (s.add ts).2 = none ∧ (s.add ts).1.mesh = some (Shape.sumMesh m0 ms) := by
  have hmap : ∀ (ts : List Shape) (ms : List Mesh), ts.map Shape.mesh = ms.map some → ts.mapM Shape.mesh = some ms := by
    intro ts
    induction ts with
    | nil => intro ms h; cases ms <;> simp_all
    | cons t ts ih =>
      intro ms h
      cases ms with
      | nil => simp at h
      | cons m ms =>
        simp only [List.map_cons, List.cons.injEq] at h
        simp [List.mapM_cons, h.1, ih ms h.2]
  have h := hmap (s :: ts) (m0 :: ms) (by simp [h0, hs])
  rw [Shape.add]
  simp only [if_pos hin, h]
  exact ⟨trivial, trivial⟩

/-- C77: the order matters: a hole listed before the body it is drilled into disappears. -/
theorem C77_order_matters (B D : Set V3) (hD : D ⊆ B) (E : Set V3) (hE : E ∩ B = ∅) (hne : D.Nonempty) :
    (Shape.sumMesh ⟨E, true⟩ [⟨B, true⟩, ⟨D, false⟩]).solid = E ∪ (B \ D) ∧
    (Shape.sumMesh ⟨E, true⟩ [⟨D, false⟩, ⟨B, true⟩]).solid = E ∪ B ∧ E ∪ (B \ D) ≠ E ∪ B := by
  have hED : ∀ v, v ∈ E → v ∉ B := fun v h1 h2 => by
    have : v ∈ E ∩ B := ⟨h1, h2⟩
    rw [hE] at this; exact this
  refine ⟨?_, ?_, ?_⟩
  · ext v
    simp only [Shape.sumMesh, List.foldl_cons, List.foldl_nil, if_true, Set.mem_diff, Set.mem_union]
    have := hED v
    have := @hD v
    simp only [Bool.false_eq_true, if_false, Set.mem_diff, Set.mem_union]
    tauto
  · ext v
    simp only [Shape.sumMesh, List.foldl_cons, List.foldl_nil, if_true, Bool.false_eq_true, if_false, Set.mem_diff, Set.mem_union]
    have := hED v
    have := @hD v
    tauto
  · intro h
    obtain ⟨v, hv⟩ := hne
    have : v ∈ E ∪ B := .inr (hD hv)
    rw [← h] at this
    rcases this with h | h
    · exact hED v h (hD hv)
    · exact h.2 hv

/-! ## C78: `Cylhole` and `Platehole` -/

theorem density_00 (dens : ℝ) (S : Set V3) : densityInner dens S 0 0 = ((dens * (1 / Real.sqrt (4 * Real.pi)) * (volume S).toReal : ℝ) : ℂ) := by
  rw [densityInner]
  simp only [solidS_zero_zero, Nlm_zero]
  rw [setIntegral_const, Measure.real]
  simp only [Complex.real_smul]
  push_cast; ring

theorem scaled_density (L : ℕ) (mass : ℝ) (S : Set V3) (hS : (volume S).toReal ≠ 0) :
    Cls.scaled mass (Mom.ofFn L (densityInner 1 S)) = some (Mom.ofFn L fun l m => 4 * Real.pi * uniformMoment mass S l m) := by
  have hpi := Real.pi_pos
  have hs : Real.sqrt (4 * Real.pi) ≠ 0 := (Real.sqrt_pos.2 (by positivity)).ne'
  have hs2 : Real.sqrt (4 * Real.pi) ^ 2 = 4 * Real.pi := Real.sq_sqrt (by positivity)
  have h00 : ((Mom.ofFn L (densityInner 1 S)).get 0 0).re = 1 / Real.sqrt (4 * Real.pi) * (volume S).toReal := by
    rw [Mom.get_ofFn _ (Nat.zero_le _) (by simp), density_00, Complex.ofReal_re, one_mul]
  rw [Cls.scaled, h00, if_neg (mul_ne_zero (one_div_ne_zero hs) hS), Option.some.injEq]
  apply Mom.ext_get
  intro l m hl hm
  rw [Mom.get_ofFn _ hl hm, Mom.get_ofFn _ hl hm, Mom.get_ofFn _ hl hm, densityInner, uniformMoment]
  have : mass / (1 / Real.sqrt (4 * Real.pi) * (volume S).toReal) * Real.sqrt (4 * Real.pi)
      = 4 * Real.pi * (mass / (volume S).toReal) := by
    rw [show 4 * Real.pi * (mass / (volume S).toReal) = Real.sqrt (4 * Real.pi) ^ 2 * (mass / (volume S).toReal) by rw [hs2]]
    field_simp
  rw [this]
  push_cast; ring

theorem vol_pos_of_ball (S : Set V3) (a b : ℝ) (ha : 0 < a) (h1 : ball a ⊆ S) (h2 : S ⊆ ball b) : 0 < (volume S).toReal :=
  lt_of_lt_of_le (ball_vol a ha)
    (ENNReal.toReal_mono (ne_top_of_le_ne_top (ball_compact b).measure_lt_top.ne (measure_mono h2)) (measure_mono h1))

theorem mem_ball_sq (v : V3) (R : ℝ) (hR : 0 ≤ R) : v ∈ ball R ↔ v 0 ^ 2 + v 1 ^ 2 + v 2 ^ 2 ≤ R ^ 2 := by
  change Real.sqrt _ ≤ R ↔ _
  rw [Real.sqrt_le_left hR]

theorem steinmetz_vol (r R : ℝ) (hr : 0 < r) (hR : r ≤ R) : 0 < (volume (steinmetz r R)).toReal := by
  refine vol_pos_of_ball _ r (r + R) hr ?_ ?_
  · intro v hv
    rw [mem_ball_sq v r hr.le] at hv
    exact ⟨by nlinarith [sq_nonneg (v 2)], by nlinarith [sq_nonneg (v 0)]⟩
  · rintro v ⟨h1, h2⟩
    rw [mem_ball_sq v _ (by linarith)]
    nlinarith [sq_nonneg (v 1)]

theorem platehole_vol (t r th : ℝ) (ht : 0 < t) (hr : 0 < r) (hc : Real.cos th ≠ 0) : 0 < (volume (platehole t r th)).toReal := by
  have hcs := Real.sin_sq_add_cos_sq th
  have hmin : 0 < min r (t / 2) := lt_min hr (by linarith)
  refine vol_pos_of_ball _ (min r (t / 2)) (r + (t / 2 + r) / |Real.cos th|) hmin ?_ ?_
  · intro v hv
    rw [mem_ball_sq v _ hmin.le] at hv
    have m1 := min_le_left r (t / 2)
    have m2 := min_le_right r (t / 2)
    constructor
    · nlinarith [sq_nonneg (v 2)]
    · apply abs_le_of_sq_le_sq _ (by linarith)
      have : (v 2 * Real.cos th - v 0 * Real.sin th) ^ 2 ≤ (v 2 ^ 2 + v 0 ^ 2) * (Real.sin th ^ 2 + Real.cos th ^ 2) := by
        nlinarith [sq_nonneg (v 2 * Real.sin th + v 0 * Real.cos th)]
      rw [hcs, mul_one] at this
      nlinarith [sq_nonneg (v 1)]
  · rintro v ⟨h1, h2⟩
    have hc' : 0 < |Real.cos th| := abs_pos.2 hc
    have hk : 0 ≤ (t / 2 + r) / |Real.cos th| := by positivity
    rw [mem_ball_sq v _ (by positivity)]
    have hx : |v 0| ≤ r := by
      apply abs_le_of_sq_le_sq _ hr.le
      nlinarith [sq_nonneg (v 1)]
    have hz : |v 2| ≤ (t / 2 + r) / |Real.cos th| := by
      rw [le_div_iff₀ hc', ← abs_mul]
      have e : v 2 * Real.cos th = (v 2 * Real.cos th - v 0 * Real.sin th) + v 0 * Real.sin th := by ring
      rw [e]
      refine (abs_add_le _ _).trans (add_le_add h2 ?_)
      rw [abs_mul]
      calc |v 0| * |Real.sin th| ≤ r * 1 := mul_le_mul hx (Real.abs_sin_le_one th) (abs_nonneg _) hr.le
        _ = r := mul_one r
    have hz2 : v 2 ^ 2 ≤ ((t / 2 + r) / |Real.cos th|) ^ 2 := by
      rw [← sq_abs]; gcongr
    nlinarith [mul_nonneg hr.le hk]

/-- C78: a `Cylhole` has `4 pi` times the moments of the body of its mass. -/
theorem C78_cylhole (L : ℕ) (mass r R : ℝ) (hr : 0 < r) (hR : r ≤ R) :
    ∃ mesh, Cls.cylhole L true mass r R = .ok ⟨true, L,
      some (Mom.ofFn L fun l m => 4 * Real.pi * uniformMoment mass (steinmetz r R) l m), some 0, mass, some mesh⟩ := by
  refine ⟨Cad.cylhole (decide (mass > 0)) r R, ?_⟩
  rw [Cls.cylhole]
  simp only [if_true]
  rw [C63_steinmetz L 1 r R hr hR, Cls.ofNum, scaled_density L mass _ (steinmetz_vol r R hr hR).ne']

/-- C78: and so has a `Platehole`. -/
theorem C78_platehole (N L : ℕ) (mass t r th : ℝ) (hr : 0 < r) (ht : 0 < t) (h1 : -(Real.pi / 2) < th) (h2 : th < Real.pi / 2) :
    ∃ mesh, Cls.platehole N L true mass t r th = .ok ⟨true, L,
      some (Mom.ofFn L fun l m => 4 * Real.pi * uniformMoment mass (platehole t r th) l m), some 0, mass, some mesh⟩ := by
  refine ⟨Cad.platehole (decide (mass > 0)) t r th, ?_⟩
  rw [Cls.platehole]
  simp only [if_true]
  rw [C63_platehole L 1 t r th hr ht h1 h2, Cls.ofNum,
    scaled_density L mass _ (platehole_vol t r th ht hr (Real.cos_pos_of_mem_Ioo ⟨h1, h2⟩).ne').ne']

/-- C78: so neither has the monopole of its mass, unless it is massless. -/
theorem C78_monopole (L : ℕ) (mass : ℝ) (S : Set V3) (hS : 0 < (volume S).toReal) :
    (Mom.ofFn L fun l m => 4 * Real.pi * uniformMoment mass S l m).get 0 0 = ((mass / Real.sqrt (4 * Real.pi) : ℝ) : ℂ)
      ↔ mass = 0 := by
  rw [Mom.get_ofFn _ (Nat.zero_le _) (by simp), uniformMoment_zero mass S hS]
  have hpi := Real.pi_gt_three
  have hs : Real.sqrt (4 * Real.pi) ≠ 0 := (Real.sqrt_pos.2 (by positivity)).ne'
  constructor
  · intro h
    have h' : 4 * Real.pi * (mass / Real.sqrt (4 * Real.pi)) = mass / Real.sqrt (4 * Real.pi) := by
      exact_mod_cast h
    have h2 : (4 * Real.pi - 1) * (mass / Real.sqrt (4 * Real.pi)) = 0 := by linear_combination h'
    rcases mul_eq_zero.1 h2 with h | h
    · linarith
    · exact (div_eq_zero_iff.1 h).resolve_right hs
  · rintro rfl; simp

/-- C78: parameters that are refused. -/
theorem C78_refuses (N L : ℕ) (mass t r R th : ℝ) :
    ((r ≤ 0 ∨ R < r) → Cls.cylhole L true mass r R = .error .valueError) ∧
    ((r ≤ 0 ∨ Real.pi / 2 ≤ th ∨ t ≤ 0) → Cls.platehole N L true mass t r th = .error .valueError) := by
  constructor
  · intro h
    rw [Cls.cylhole]
    simp only [if_true]
    rw [QlmNum.steinmetz, if_pos h]
    rfl
  · intro h
    rw [Cls.platehole]
    simp only [if_true]
    rw [QlmNum.platehole, if_pos h]
    rfl

example : 0 < (volume (steinmetz 1 2)).toReal := steinmetz_vol 1 2 one_pos (by norm_num)

/-! ## C79: outer moments of the classes -/

theorem plane_null : volume {v : V3 | v 2 = 0} = 0 := by
  have h : {v : V3 | v 2 = 0} = (LinearMap.ker (LinearMap.proj 2 : V3 →ₗ[ℝ] ℝ) : Set V3) := by
    ext v; simp
  rw [h]
  apply Measure.addHaar_submodule
  intro htop
  have : (![0, 0, 1] : V3) ∈ LinearMap.ker (LinearMap.proj 2 : V3 →ₗ[ℝ] ℝ) := by rw [htop]; trivial
  simp at this

theorem outer_halves (dens H Ri Ro phic phih : ℝ) (hH : 0 < H) (hRi : 0 < Ri) (l : ℕ) (m : ℤ) :
    densityOuter dens (documentedSection (H / 2) Ri Ro phic phih) l m
      + densityOuter dens (documentedSection (-H / 2) Ri Ro phic phih) l m
      = densityOuter dens (prism H (sector Ri Ro phic phih)) l m := by
  have hS : IsCompact (sector Ri Ro phic phih) := sector_compact _ _ _ _
  have hu : prism H (sector Ri Ro phic phih)
      = documentedSection (H / 2) Ri Ro phic phih ∪ documentedSection (-H / 2) Ri Ro phic phih := by
    have e1 : min 0 (H / 2) = 0 := min_eq_left (by linarith)
    have e2 : max 0 (H / 2) = H / 2 := max_eq_right (by linarith)
    have e3 : min 0 (-H / 2) = -H / 2 := min_eq_right (by linarith)
    have e4 : max 0 (-H / 2) = 0 := max_eq_left (by linarith)
    ext v
    simp only [documentedSection, e1, e2, e3, e4, slab, prism, Set.mem_union, Set.mem_setOf_eq]
    constructor
    · rintro ⟨h1, h2, h3⟩
      rcases le_total 0 (v 2) with h | h
      · exact .inl ⟨h, h2, h3⟩
      · exact .inr ⟨by linarith, h, h3⟩
    · rintro (⟨h1, h2, h3⟩ | ⟨h1, h2, h3⟩)
      · exact ⟨by linarith, h2, h3⟩
      · exact ⟨by linarith, by linarith, h3⟩
  have hd : AEDisjoint volume (documentedSection (H / 2) Ri Ro phic phih) (documentedSection (-H / 2) Ri Ro phic phih) := by
    refine measure_mono_null ?_ plane_null
    rintro v ⟨⟨h1, _, _⟩, _, h2, _⟩
    rw [min_eq_left (by linarith)] at h1
    rw [max_eq_left (by linarith)] at h2
    exact le_antisymm h2 h1
  have hmeas : ∀ h, MeasurableSet (documentedSection h Ri Ro phic phih) := fun h =>
    slab_meas _ _ _ hS.measurableSet
  have hint : IntegrableOn (solidO l m) (prism H (sector Ri Ro phic phih)) := by
    have hc := prism_compact H _ hS
    have : IsFiniteMeasure (volume.restrict (prism H (sector Ri Ro phic phih))) :=
      ⟨by rw [Measure.restrict_apply_univ]; exact hc.measure_lt_top⟩
    refine solidO_integrable _ l m Ri hRi ?_
    rw [ae_restrict_iff' hc.measurableSet]
    refine Filter.Eventually.of_forall fun v hv => ?_
    have := (sector_sq Ri Ro phic phih hRi.le _ hv.2.2).1
    change Ri ≤ Real.sqrt _
    apply Real.le_sqrt_of_sq_le
    nlinarith [sq_nonneg (v 2)]
  rw [densityOuter, densityOuter, densityOuter, hu,
    setIntegral_union₀ hd (hmeas _).nullMeasurableSet
      (hint.mono_set (by rw [hu]; exact Set.subset_union_left)) (hint.mono_set (by rw [hu]; exact Set.subset_union_right))]
  ring

/-- C79: the outer moments of an `Annulus` are half of those of the body of its mass (mirrored in azimuth,
C66), except in the cells that `bigQlm.annulus` gets wrong. -/
theorem C79_annulus (L : ℕ) (mass H Ri Ro phic phih : ℝ) (hH : 0 < H) (hRi : 0 < Ri) (hR : Ri < Ro) (h0 : 0 < phih)
    (hpi : phih ≤ Real.pi) :
    ∃ q, Cls.annulus L false mass H Ri Ro phic phih = .ok ⟨false, L, some q, some 0, mass,
        some ⟨prism H (sector Ri Ro phic phih), decide (0 < mass)⟩⟩ ∧
      ∀ (l : ℕ) (m : ℤ), m.natAbs ≤ l → l ≤ L → l ≤ 5 → ¬ (l = 2 ∧ m = 0) → ¬ (l = 5 ∧ m.natAbs = 3) →
        q.get l m = 1 / 2 * densityOuter (mass / (volume (prism H (sector Ri Ro (-phic) phih))).toReal)
          (prism H (sector Ri Ro (-phic) phih)) l m := by
  have hd : 2 * phih * (Ro ^ 2 - Ri ^ 2) * H ≠ 0 := by
    have : 0 < Ro ^ 2 - Ri ^ 2 := by nlinarith
    positivity
  have hvol : (volume (prism H (sector Ri Ro (-phic) phih))).toReal = phih * (Ro ^ 2 - Ri ^ 2) * H := by
    rw [prism_vol H hH, area_sector Ri Ro (-phic) phih hRi.le hR.le h0.le hpi]; ring
  set dens := mass / (2 * phih * (Ro ^ 2 - Ri ^ 2) * H) with hdens
  obtain ⟨Q1, e1, f1⟩ := C66_annulus L dens (H / 2) Ri Ro phic phih (by linarith) hRi hR.le h0 hpi
  obtain ⟨Q2, e2, f2⟩ := C66_annulus L dens (-H / 2) Ri Ro phic phih (by linarith) hRi hR.le h0 hpi
  refine ⟨Shape.sumMom [Q1, Q2], ?_, ?_⟩
  · rw [Cls.annulus]
    simp only [Bool.false_eq_true, if_false, if_neg hd]
    rw [← hdens, e1, e2, Cad.annulus_solid _ H Ri Ro phic phih hH hR.le]
  · intro l m hm hl h5 h20 h53
    rw [Shape.sumMom, Mom.get_ofFn _ hl (by omega)]
    simp only [List.map_cons, List.map_nil, List.sum_cons, List.sum_nil, add_zero]
    rw [f1 l m hm hl h5 h20 h53, f2 l m hm hl h5 h20 h53, outer_halves dens H Ri Ro (-phic) phih hH hRi, hvol, densityOuter, densityOuter]
    have : dens = 1 / 2 * (mass / (phih * (Ro ^ 2 - Ri ^ 2) * H)) := by rw [hdens]; field_simp
    rw [this]
    push_cast; ring

/-- C79: an outer annulus reaching the axis, an empty one or a flat one divides by zero; other unphysical
parameters are refused. -/
theorem C79_annulus_fails (L : ℕ) (mass H Ri Ro phic phih : ℝ) :
    ((Ro ^ 2 = Ri ^ 2 ∨ phih = 0 ∨ H = 0) → Cls.annulus L false mass H Ri Ro phic phih = .error .zeroDivision) ∧
    (Ri = 0 → 0 < Ro → 0 < phih → phih ≤ Real.pi → H ≠ 0 →
      Cls.annulus L false mass H Ri Ro phic phih = .error .zeroDivision) ∧
    (Ro ^ 2 ≠ Ri ^ 2 → phih ≠ 0 → H ≠ 0 → (Ro < Ri ∨ Ri < 0 ∨ phih < 0 ∨ Real.pi < phih) →
      Cls.annulus L false mass H Ri Ro phic phih = .error .valueError) := by
  refine ⟨?_, ?_, ?_⟩
  · intro h
    rw [Cls.annulus]
    simp only [Bool.false_eq_true, if_false]
    rw [if_pos]
    rcases h with h | h | h <;> simp [h]
  · rintro rfl hRo h0 hpi hH
    rw [Cls.annulus]
    simp only [Bool.false_eq_true, if_false]
    rw [if_neg (by simp [h0.ne', hRo.ne', hH]), C66_annulus_disc L _ (H / 2) Ro phic phih (by simpa using hH) hRo.le h0 hpi]
  · intro hR hp hH h
    rw [Cls.annulus]
    simp only [Bool.false_eq_true, if_false]
    rw [if_neg (by simp [hp, hH, sub_eq_zero, hR]), (C66_annulus_refuses_iff L _ (H / 2) Ri Ro phic phih).2]
    rcases h with h | h | h | h
    · exact .inr (.inl h)
    · exact .inr (.inr (.inl h))
    · exact .inr (.inr (.inr (.inl h.le)))
    · exact .inr (.inr (.inr (.inr h)))

/-- C79: the outer moments of every other class are zero whatever its mass. -/
theorem C79_others (N L : ℕ) (mass a b c d : ℝ) :
    ∀ s, (Cls.rectPrism L false mass a b c d = .ok s ∨ Cls.triPrism L false mass a b c d = .ok s ∨
        Cls.cone L false mass a b c d = .ok s ∨ Cls.ngon L false mass a b c N = .ok s ∨
        Cls.tetrahedron L false mass a b c d = .ok s ∨ Cls.pyramid L false mass a b c = .ok s ∨
        Cls.cylhole L false mass a b = .ok s ∨ Cls.platehole N L false mass a b c = .ok s ∨
        Cls.sphere L false mass a ![b, c, d] = .ok s) →
      s.mass = mass ∧ s.inner = false ∧ ∃ q, s.qlm = some q ∧ ∀ (l : ℕ) (m : ℤ), q.get l m = 0 := by
  have key : ∀ mesh, (Shape.outerStub L mass mesh).mass = mass ∧ (Shape.outerStub L mass mesh).inner = false ∧
      ∃ q, (Shape.outerStub L mass mesh).qlm = some q ∧ ∀ (l : ℕ) (m : ℤ), q.get l m = 0 := by
    intro mesh
    refine ⟨rfl, rfl, Mom.ofFn L fun _ _ => 0, rfl, fun l m => ?_⟩
    change (Mom.ofFn L fun _ _ => 0).get l m = 0
    by_cases h : l ≤ L ∧ m.natAbs ≤ L
    · exact Mom.get_ofFn _ h.1 h.2
    · rw [Mom.get, dif_neg h]
  intro s hs
  rcases hs with h | h | h | h | h | h | h | h | h
  on_goal 9 =>
    rw [Cls.sphere] at h
    simp only [Bool.false_eq_true, if_false] at h
    split_ifs at h
    split at h
    all_goals first
      | (simp only [reduceCtorEq] at h)
      | skip
  all_goals
    simp only [Cls.rectPrism, Cls.triPrism, Cls.cone, Cls.ngon, Cls.tetrahedron, Cls.pyramid, Cls.cylhole, Cls.platehole,
      Bool.false_eq_true, if_false, Except.ok.injEq] at h
    rw [← h]
    exact key _

/-- C79: every one of these calls succeeds whatever the dimensions (even those the inner branch refuses), except that
`Sphere` needs a radius and a centre away from the origin. -/
theorem C79_others_accept (N L : ℕ) (mass a b c d : ℝ) :
    (∃ s, Cls.rectPrism L false mass a b c d = .ok s) ∧ (∃ s, Cls.triPrism L false mass a b c d = .ok s) ∧
    (∃ s, Cls.cone L false mass a b c d = .ok s) ∧ (∃ s, Cls.ngon L false mass a b c N = .ok s) ∧
    (∃ s, Cls.tetrahedron L false mass a b c d = .ok s) ∧ (∃ s, Cls.pyramid L false mass a b c = .ok s) ∧
    (∃ s, Cls.cylhole L false mass a b = .ok s) ∧ (∃ s, Cls.platehole N L false mass a b c = .ok s) ∧
    ((∃ s, Cls.sphere L false mass a ![b, c, d] = .ok s) ↔ a ≠ 0 ∧ (![b, c, d] : V3) ≠ 0) ∧
    (a = 0 → Cls.sphere L false mass a ![b, c, d] = .error .zeroDivision) ∧
    (a ≠ 0 → Cls.sphere L false mass a ![0, 0, 0] = .error .valueError) := by
  have hv : (![b, c, d] : V3) = 0 ↔ Real.sqrt (b ^ 2 + c ^ 2 + d ^ 2) = 0 := by
    rw [Real.sqrt_eq_zero (by positivity)]
    constructor
    · intro h
      have h0 := congrFun h 0; have h1 := congrFun h 1; have h2 := congrFun h 2
      simp at h0 h1 h2
      rw [h0, h1, h2]; norm_num
    · intro h
      have h0 : b = 0 := by nlinarith [sq_nonneg b, sq_nonneg c, sq_nonneg d]
      have h1 : c = 0 := by nlinarith [sq_nonneg b, sq_nonneg c, sq_nonneg d]
      have h2 : d = 0 := by nlinarith [sq_nonneg b, sq_nonneg c, sq_nonneg d]
      subst h0 h1 h2
      ext i; fin_cases i <;> simp
  have hz : 4 * Real.pi * a ^ 3 / 3 = 0 ↔ a = 0 := by
    constructor
    · intro h
      by_contra ha
      have : 4 * Real.pi * a ^ 3 / 3 ≠ 0 := by
        have := Real.pi_ne_zero
        positivity
      exact this h
    · intro h; rw [h]; norm_num
  refine ⟨⟨_, rfl⟩, ⟨_, rfl⟩, ⟨_, rfl⟩, ⟨_, rfl⟩, ⟨_, rfl⟩, ⟨_, rfl⟩, ⟨_, rfl⟩, ⟨_, rfl⟩, ?_, ?_, ?_⟩
  · rw [Cls.sphere]
    simp only [Bool.false_eq_true, if_false, Matrix.cons_val]
    by_cases ha : a = 0
    · rw [if_pos (hz.2 ha)]
      simp [ha]
    · rw [if_neg (fun h => ha (hz.1 h)), BigQlm.sphere]
      by_cases h : Real.sqrt (b ^ 2 + c ^ 2 + d ^ 2) = 0
      · simp only [if_pos h, reduceCtorEq, exists_false, false_iff, not_and, not_not]
        exact fun _ => hv.2 h
      · simp only [if_neg h]
        exact ⟨fun _ => ⟨ha, fun e => h (hv.1 e)⟩, fun _ => ⟨_, rfl⟩⟩
  · intro ha
    rw [Cls.sphere]
    simp only [Bool.false_eq_true, if_false]
    rw [if_pos (hz.2 ha)]
  · intro ha
    rw [Cls.sphere]
    simp only [Bool.false_eq_true, if_false]
    rw [if_neg (fun h => ha (hz.1 h)), BigQlm.sphere]
    simp

/-- C79: an `OuterCone`, inner or outer, never has moments other than zero, whatever its mass. -/
theorem C79_outer_cone (solid : Set V3) (L : ℕ) (inner : Bool) (mass H IR OR phih : ℝ) (s : Shape)
    (h : Cls.outerCone solid L inner mass H IR OR phih = .ok s) :
    s.mass = mass ∧ s.inner = inner ∧ ∃ q, s.qlm = some q ∧ ∀ (l : ℕ) (m : ℤ), q.get l m = 0 := by
  have key : ∀ (l : ℕ) (m : ℤ), (Mom.ofFn L fun _ _ => 0).get l m = 0 := by
    intro l m
    by_cases h : l ≤ L ∧ m.natAbs ≤ L
    · exact Mom.get_ofFn _ h.1 h.2
    · rw [Mom.get, dif_neg h]
  rw [Cls.outerCone] at h
  cases inner
  · simp only [Bool.false_eq_true, if_false] at h
    split_ifs at h
    split at h
    · simp only [reduceCtorEq] at h
    · rw [Except.ok.injEq] at h
      rw [← h]
      exact ⟨rfl, rfl, _, rfl, key⟩
  · simp only [if_true] at h
    split_ifs at h
    rw [Except.ok.injEq] at h
    rw [← h]
    exact ⟨rfl, rfl, _, rfl, key⟩

/-- C79: exactly which outer calls of `OuterCone` succeed. -/
theorem C79_outer_cone_accepts_iff (solid : Set V3) (L : ℕ) (mass H IR OR phih : ℝ) :
    (∃ s, Cls.outerCone solid L false mass H IR OR phih = .ok s) ↔
      0 < IR ∧ IR < OR ∧ 0 < H ∧ 0 < phih ∧ phih ≤ Real.pi := by
  rw [Cls.outerCone]
  simp only [Bool.false_eq_true, if_false]
  by_cases hI : IR ≤ 0
  · rw [if_pos hI]
    simp only [reduceCtorEq, exists_false, false_iff]
    intro h; linarith [h.1]
  · rw [if_neg hI]
    push Not at hI
    by_cases h0 : 2 * phih * H * (OR ^ 2 - IR ^ 2) / 3 = 0
    · rw [if_pos h0]
      simp only [reduceCtorEq, exists_false, false_iff]
      rintro ⟨_, h1, h2, h3, _⟩
      have : 0 < OR ^ 2 - IR ^ 2 := by nlinarith
      have : 0 < 2 * phih * H * (OR ^ 2 - IR ^ 2) / 3 := by positivity
      exact this.ne' h0
    · rw [if_neg h0, BigQlmNum.outerCone]
      by_cases hg : H ≤ 0 ∨ OR < IR ∨ phih ≤ 0 ∨ OR ≤ 0 ∨ phih > Real.pi
      · rw [if_pos hg]
        simp only [reduceCtorEq, exists_false, false_iff]
        rintro ⟨_, h1, h2, h3, h4⟩
        rcases hg with h | h | h | h | h <;> linarith
      · rw [if_neg hg]
        push Not at hg
        simp only [Except.ok.injEq, exists_eq', true_iff]
        refine ⟨hI, lt_of_le_of_ne hg.2.1 ?_, hg.1, hg.2.2.1, hg.2.2.2.2⟩
        rintro rfl
        apply h0; ring

/-- C77: an `OuterCone` of negative mass (a hole) is joined to the mesh of the shape it is added to instead
of being cut out of it. -/
theorem C77_outer_cone_hole (solid : Set V3) (L : ℕ) (mass H IR OR phih : ℝ) (hm : mass < 0) (s t t' : Shape)
    (m : Mesh) (h : Cls.outerCone solid L false mass H IR OR phih = .ok s) (ht : t.mesh = some m)
    (hadd : t.add [s] = (t', none)) : ∃ m', t'.mesh = some m' ∧ m'.solid = m.solid ∪ solid := by
  have hs : s.mesh = some ⟨solid, true⟩ := by
    rw [Cls.outerCone] at h
    simp only [Bool.false_eq_true, if_false] at h
    split_ifs at h
    split at h
    · simp only [reduceCtorEq] at h
    · rw [Except.ok.injEq] at h
      rw [← h]
      simp [Shape.outerStub, hm.ne]
  rw [Shape.add] at hadd
  split_ifs at hadd
  · have hmm : List.mapM Shape.mesh [t, s] = some [m, ⟨solid, true⟩] := by simp [ht, hs]
    simp only [hmm, Prod.mk.injEq, and_true] at hadd
    rw [← hadd]
    exact ⟨_, rfl, by simp [Shape.sumMesh]⟩
  · simp at hadd

/-- An outer cone of mass 2 exists and has no moments. -/
example (solid : Set V3) : ∃ s, Cls.outerCone solid 3 false 2 1 1 2 1 = .ok s ∧ s.mass = 2 ∧
    ∃ q, s.qlm = some q ∧ ∀ (l : ℕ) (m : ℤ), q.get l m = 0 := by
  obtain ⟨s, hs⟩ := (C79_outer_cone_accepts_iff solid 3 2 1 1 2 1).2
    ⟨by norm_num, by norm_num, by norm_num, by norm_num, by linarith [Real.pi_gt_three]⟩
  obtain ⟨h1, -, h2⟩ := C79_outer_cone solid 3 false 2 1 1 2 1 s hs
  exact ⟨s, hs, h1, h2⟩

end Newt
