import Verif.Proofs.GlibRot

/-!
# Properties C01-C07, C09 of `newt/glib.py`
-/

namespace Newt

open Spec Matrix

/-! ## C01, C02: Newton's third law -/

/-- C01. -/
theorem C01_newton_third_gravity (A B : PtArray) (h : Apart A B) :
    ∃ F T, point_matrix_gravity A B = some (F, T) ∧ point_matrix_gravity B A = some (-F, -T) := by
  have h' : Apart B A := fun b hb a ha e => h a ha b hb e.symm
  refine ⟨_, _, pmg_some h, ?_⟩
  rw [pmg_some h', totF_antisymm gW gW_symm A B, totT_antisymm gW gW_symm A B]

/-- C02. -/
theorem C02_newton_third_yukawa (A B : PtArray) (alpha lmbd : ℝ) (hl : lmbd ≠ 0)
    (h : Apart A B) :
    ∃ F T, point_matrix_yukawa A B alpha lmbd = some (F, T) ∧
      point_matrix_yukawa B A alpha lmbd = some (-F, -T) := by
  have h' : Apart B A := fun b hb a ha e => h a ha b hb e.symm
  refine ⟨_, _, pmy_some hl h, ?_⟩
  rw [pmy_some hl h', totF_antisymm _ (yW_symm alpha lmbd) A B,
    totT_antisymm _ (yW_symm alpha lmbd) A B]

/-- two-point arrays used in the non-vacuity examples -/
def exA : PtArray := [⟨1, ![0, 0, 0]⟩, ⟨2, ![0, 1, 0]⟩]
/-- two-point arrays used in the non-vacuity examples -/
def exB : PtArray := [⟨3, ![1, 0, 0]⟩, ⟨4, ![0, 0, 2]⟩]

theorem exAB_apart : Apart exA exB := by
  intro a ha b hb e
  simp only [exA, exB, List.mem_cons, List.not_mem_nil, or_false] at ha hb
  have e0 := congrFun e 0
  have e1 := congrFun e 1
  have e2 := congrFun e 2
  rcases ha with rfl | rfl <;> rcases hb with rfl | rfl <;> simp at e0 e1 e2

example : ∃ F T, point_matrix_gravity exA exB = some (F, T) ∧
    point_matrix_gravity exB exA = some (-F, -T) := C01_newton_third_gravity _ _ exAB_apart

example : ∃ F T, point_matrix_yukawa exA exB 2 3 = some (F, T) ∧
    point_matrix_yukawa exB exA 2 3 = some (-F, -T) :=
  C02_newton_third_yukawa _ _ 2 3 (by norm_num) exAB_apart

/-! ## C03: superposition -/

theorem apart_append_left {A A' B : PtArray} :
    Apart (A ++ A') B ↔ Apart A B ∧ Apart A' B := by
  simp only [Apart, List.mem_append]
  exact ⟨fun h => ⟨fun a ha => h a (Or.inl ha), fun a ha => h a (Or.inr ha)⟩,
    fun h a ha => ha.elim (h.1 a) (h.2 a)⟩

theorem apart_append_right {A B B' : PtArray} :
    Apart A (B ++ B') ↔ Apart A B ∧ Apart A B' := by
  simp only [Apart, List.mem_append]
  exact ⟨fun h => ⟨fun a ha b hb => h a ha b (Or.inl hb), fun a ha b hb => h a ha b (Or.inr hb)⟩,
    fun h a ha b hb => hb.elim (h.1 a ha b) (h.2 a ha b)⟩

theorem tot_append_left (w : Pt → Pt → ℝ) (A A' B : PtArray) :
    (totF w (A ++ A') B, totT w (A ++ A') B) =
      (totF w A B, totT w A B) + (totF w A' B, totT w A' B) := by
  simp [totF, totT]

theorem tot_append_right (w : Pt → Pt → ℝ) (A B B' : PtArray) :
    (totF w A (B ++ B'), totT w A (B ++ B')) =
      (totF w A B, totT w A B) + (totF w A B', totT w A B') := by
  simp [totF, totT, List.sum_map_add]

/-- NaN-propagating addition of two results. -/
def addResults (r s : Option (V3 × V3)) : Option (V3 × V3) := r.bind fun a => s.map fun b => a + b

theorem super_aux (f : Option (V3 × V3)) (P P1 P2 : Prop) (hP : P ↔ P1 ∧ P2)
    (f1 f2 : Option (V3 × V3)) (v1 v2 : V3 × V3)
    (h : P → f = some (v1 + v2)) (hn : ¬ P → f = none)
    (h1 : P1 → f1 = some v1) (h1n : ¬ P1 → f1 = none)
    (h2 : P2 → f2 = some v2) (h2n : ¬ P2 → f2 = none) : f = addResults f1 f2 := by
  by_cases p1 : P1
  · by_cases p2 : P2
    · rw [h (hP.2 ⟨p1, p2⟩), h1 p1, h2 p2]; rfl
    · rw [hn (fun p => p2 (hP.1 p).2), h1 p1, h2n p2]; rfl
  · rw [hn (fun p => p1 (hP.1 p).1), h1n p1]; rfl

/-- C03 (gravity): the force and torque on a concatenation is the sum over the parts (undefined
results included). -/
theorem C03_gravity_append_left (A A' B : PtArray) :
    point_matrix_gravity (A ++ A') B =
      addResults (point_matrix_gravity A B) (point_matrix_gravity A' B) :=
  super_aux _ _ _ _ apart_append_left _ _ _ _
    (fun h => by rw [pmg_some h, tot_append_left]) pmg_none pmg_some pmg_none pmg_some pmg_none

/-- C03 (gravity): the force and torque exerted by a concatenation is the sum over the parts. -/
theorem C03_gravity_append_right (A B B' : PtArray) :
    point_matrix_gravity A (B ++ B') =
      addResults (point_matrix_gravity A B) (point_matrix_gravity A B') :=
  super_aux _ _ _ _ apart_append_right _ _ _ _
    (fun h => by rw [pmg_some h, tot_append_right]) pmg_none pmg_some pmg_none pmg_some pmg_none

/-- C03 (Yukawa, sensor side). -/
theorem C03_yukawa_append_left (A A' B : PtArray) (alpha lmbd : ℝ) (hl : lmbd ≠ 0) :
    point_matrix_yukawa (A ++ A') B alpha lmbd =
      addResults (point_matrix_yukawa A B alpha lmbd) (point_matrix_yukawa A' B alpha lmbd) :=
  super_aux _ _ _ _ apart_append_left _ _ _ _
    (fun h => by rw [pmy_some hl h, tot_append_left]) pmy_none (pmy_some hl) pmy_none
    (pmy_some hl) pmy_none

/-- C03 (Yukawa, source side). -/
theorem C03_yukawa_append_right (A B B' : PtArray) (alpha lmbd : ℝ) (hl : lmbd ≠ 0) :
    point_matrix_yukawa A (B ++ B') alpha lmbd =
      addResults (point_matrix_yukawa A B alpha lmbd) (point_matrix_yukawa A B' alpha lmbd) :=
  super_aux _ _ _ _ apart_append_right _ _ _ _
    (fun h => by rw [pmy_some hl h, tot_append_right]) pmy_none (pmy_some hl) pmy_none
    (pmy_some hl) pmy_none

theorem totF_perm (w : Pt → Pt → ℝ) {A A' B B' : PtArray} (hA : A.Perm A') (hB : B.Perm B') :
    totF w A B = totF w A' B' := by
  unfold totF
  rw [(hA.map _).sum_eq]
  congr 1
  apply List.map_congr_left
  intro a _
  rw [(hB.map _).sum_eq]

theorem totT_perm (w : Pt → Pt → ℝ) {A A' B B' : PtArray} (hA : A.Perm A') (hB : B.Perm B') :
    totT w A B = totT w A' B' := by
  unfold totT
  rw [(hA.map _).sum_eq]
  congr 1
  apply List.map_congr_left
  intro a _
  rw [(hB.map _).sum_eq]

theorem apart_perm {A A' B B' : PtArray} (hA : A.Perm A') (hB : B.Perm B') :
    Apart A B ↔ Apart A' B' := by
  unfold Apart
  constructor
  · intro h a ha b hb; exact h a (hA.mem_iff.2 ha) b (hB.mem_iff.2 hb)
  · intro h a ha b hb; exact h a (hA.mem_iff.1 ha) b (hB.mem_iff.1 hb)

/-- C03: the order of the rows never matters (gravity). -/
theorem C03_gravity_perm {A A' B B' : PtArray} (hA : A.Perm A') (hB : B.Perm B') :
    point_matrix_gravity A B = point_matrix_gravity A' B' := by
  by_cases h : Apart A B
  · rw [pmg_some h, pmg_some ((apart_perm hA hB).1 h), totF_perm gW hA hB, totT_perm gW hA hB]
  · rw [pmg_none h, pmg_none (fun h' => h ((apart_perm hA hB).2 h'))]

/-- C03: the order of the rows never matters (Yukawa). -/
theorem C03_yukawa_perm {A A' B B' : PtArray} (hA : A.Perm A') (hB : B.Perm B')
    (alpha lmbd : ℝ) (hl : lmbd ≠ 0) :
    point_matrix_yukawa A B alpha lmbd = point_matrix_yukawa A' B' alpha lmbd := by
  by_cases h : Apart A B
  · rw [pmy_some hl h, pmy_some hl ((apart_perm hA hB).1 h), totF_perm _ hA hB, totT_perm _ hA hB]
  · rw [pmy_none h, pmy_none (fun h' => h ((apart_perm hA hB).2 h'))]

theorem smul_list_sum {M : Type*} [AddCommGroup M] [Module ℝ M] (s : ℝ) (l : List M) :
    (l.map fun v => s • v).sum = s • l.sum := by
  induction l with
  | nil => simp
  | cons v l ih => simp [ih]

theorem tot_smul (w w' : Pt → Pt → ℝ) (A A' B B' : PtArray) (s : ℝ) (fa fb : Pt → Pt)
    (ha : ∀ p, (fa p).pos = p.pos) (hb : ∀ p, (fb p).pos = p.pos)
    (hw : ∀ p q, w' (fa p) (fb q) = s * w p q) (eA : A' = A.map fa) (eB : B' = B.map fb) :
    (totF w' A' B', totT w' A' B') = s • (totF w A B, totT w A B) := by
  subst eA eB
  simp only [totF, totT_eq, List.map_map, Prod.smul_mk, Prod.mk.injEq]
  constructor
  · rw [← smul_list_sum, List.map_map]
    congr 1
    apply List.map_congr_left; intro a _
    simp only [Function.comp]
    rw [← smul_list_sum, List.map_map]
    congr 1
    apply List.map_congr_left; intro b _
    simp [Function.comp, ha, hb, hw, mul_smul]
  · rw [← smul_list_sum, List.map_map]
    congr 1
    apply List.map_congr_left; intro a _
    simp only [Function.comp]
    rw [← smul_list_sum, List.map_map]
    congr 1
    apply List.map_congr_left; intro b _
    simp [Function.comp, ha, hb, hw, mul_smul]

theorem apart_scale (s t : ℝ) (A B : PtArray) :
    Apart (scaleMass s A) (scaleMass t B) ↔ Apart A B := by
  simp [Apart, scaleMass]

/-- C03: bilinear in the masses (gravity). -/
theorem C03_gravity_mass (s t : ℝ) (A B : PtArray) :
    point_matrix_gravity (scaleMass s A) (scaleMass t B) =
      (point_matrix_gravity A B).map fun r => (s * t) • r := by
  by_cases h : Apart A B
  · rw [pmg_some h, pmg_some ((apart_scale s t A B).2 h), Option.map_some]
    congr 1
    exact tot_smul gW gW A _ B _ (s * t) (fun p => ⟨s * p.mass, p.pos⟩)
      (fun p => ⟨t * p.mass, p.pos⟩) (fun _ => rfl) (fun _ => rfl)
      (fun p q => by simp [gW]; ring) rfl rfl
  · rw [pmg_none h, pmg_none (fun h' => h ((apart_scale s t A B).1 h'))]; rfl

/-- C03: bilinear in the masses (Yukawa). -/
theorem C03_yukawa_mass (s t : ℝ) (A B : PtArray) (alpha lmbd : ℝ) (hl : lmbd ≠ 0) :
    point_matrix_yukawa (scaleMass s A) (scaleMass t B) alpha lmbd =
      (point_matrix_yukawa A B alpha lmbd).map fun r => (s * t) • r := by
  by_cases h : Apart A B
  · rw [pmy_some hl h, pmy_some hl ((apart_scale s t A B).2 h), Option.map_some]
    congr 1
    exact tot_smul (yW alpha lmbd) (yW alpha lmbd) A _ B _ (s * t) (fun p => ⟨s * p.mass, p.pos⟩)
      (fun p => ⟨t * p.mass, p.pos⟩) (fun _ => rfl) (fun _ => rfl)
      (fun p q => by simp [yW]; ring) rfl rfl
  · rw [pmy_none h, pmy_none (fun h' => h ((apart_scale s t A B).1 h'))]; rfl

/-- The one-row call forms agree with the array forms. -/
theorem C03_row_forms (p q : Pt) (B : PtArray) :
    gmmr2_row p q = gmmr2_array p [q] ∧
      point_matrix_gravity_row p B = point_matrix_gravity [p] B := by
  constructor
  · simp only [gmmr2_row, gmmr2_array]
    rcases h : gmmr2_term p q with _ | v
    · rw [mapM_opt_none _ _ ⟨q, by simp, h⟩]
      simpa [gmmr2_term] using h
    · rw [mapM_opt_some _ (fun _ => v) [q] (by simpa using h)]
      simpa [gmmr2_term] using h
  · rw [point_matrix_gravity_row, point_matrix_gravity, accumulate]
    rcases h : gmmr2_array p B with _ | v
    · rfl
    · simp [accumulate]

example : point_matrix_gravity (exA ++ exA) exB ≠ none ∧ exB.Perm exB.reverse := by
  refine ⟨?_, (List.reverse_perm _).symm⟩
  rw [pmg_some (apart_append_left.2 ⟨exAB_apart, exAB_apart⟩)]
  exact Option.some_ne_none _

/-! ## C04: translation covariance -/

theorem apart_translate (A B : PtArray) (d : V3) :
    Apart (translate_point_array A d) (translate_point_array B d) ↔ Apart A B := by
  simp [Apart, translate_point_array, translate_point]

theorem tot_translate (w : Pt → Pt → ℝ) (d : V3)
    (hw : ∀ p q, w (translate_point d p) (translate_point d q) = w p q) (A B : PtArray) :
    totF w (translate_point_array A d) (translate_point_array B d) = totF w A B ∧
    totT w (translate_point_array A d) (translate_point_array B d) =
      totT w A B + crossProduct d (totF w A B) := by
  have e : ∀ a : Pt, ((B.map (translate_point d)).map fun b =>
      w (translate_point d a) b • (b.pos - (translate_point d a).pos)).sum =
      (B.map fun b => w a b • (b.pos - a.pos)).sum := by
    intro a
    rw [List.map_map]
    congr 1
    apply List.map_congr_left; intro b _
    simp only [Function.comp, hw]
    simp [translate_point]
  constructor
  · simp only [totF, translate_point_array]
    rw [List.map_map]
    congr 1
    apply List.map_congr_left; intro a _
    simp only [Function.comp, e]
  · simp only [totF, totT, translate_point_array]
    rw [cross_list_sum, List.map_map, List.map_map, ← List.sum_map_add]
    congr 1
    apply List.map_congr_left; intro a _
    simp only [Function.comp, e]
    simp [translate_point]

/-- C04 (gravity): moving both arrays by `d` keeps the force and adds `d x F` to the torque. -/
theorem C04_gravity_translation (A B : PtArray) (d : V3) :
    point_matrix_gravity (translate_point_array A d) (translate_point_array B d) =
      (point_matrix_gravity A B).map fun r => (r.1, r.2 + crossProduct d r.1) := by
  by_cases h : Apart A B
  · have ht := tot_translate gW d (fun p q => by simp [gW, translate_point]) A B
    rw [pmg_some h, pmg_some ((apart_translate A B d).2 h), ht.1, ht.2]; rfl
  · rw [pmg_none h, pmg_none (fun h' => h ((apart_translate A B d).1 h'))]; rfl

/-- C04 (Yukawa). -/
theorem C04_yukawa_translation (A B : PtArray) (d : V3) (alpha lmbd : ℝ) (hl : lmbd ≠ 0) :
    point_matrix_yukawa (translate_point_array A d) (translate_point_array B d) alpha lmbd =
      (point_matrix_yukawa A B alpha lmbd).map fun r => (r.1, r.2 + crossProduct d r.1) := by
  by_cases h : Apart A B
  · have ht := tot_translate (yW alpha lmbd) d (fun p q => by simp [yW, translate_point]) A B
    rw [pmy_some hl h, pmy_some hl ((apart_translate A B d).2 h), ht.1, ht.2]; rfl
  · rw [pmy_none h, pmy_none (fun h' => h ((apart_translate A B d).1 h'))]; rfl

/-! ## C05: rotation covariance -/

/-- apply a map to all positions -/
def mapPos (f : V3 → V3) (A : PtArray) : PtArray := A.map fun p => ⟨p.mass, f p.pos⟩

theorem map_list_sum (f : V3 → V3) (hf : ∀ x y, f (x + y) = f x + f y)
    (h0 : f 0 = 0) : ∀ l : List V3, f l.sum = (l.map f).sum
  | [] => by simp [h0]
  | v :: l => by simp [hf, map_list_sum f hf h0 l]

theorem tot_rotate (w : Pt → Pt → ℝ) {v : V3} (hv : v ≠ 0) (t : ℝ)
    (hw : ∀ p q : Pt, w ⟨p.mass, rotF t v p.pos⟩ ⟨q.mass, rotF t v q.pos⟩ = w p q)
    (A B : PtArray) :
    totF w (mapPos (rotF t v) A) (mapPos (rotF t v) B) = rotF t v (totF w A B) ∧
    totT w (mapPos (rotF t v) A) (mapPos (rotF t v) B) = rotF t v (totT w A B) := by
  have hf := (rotF_isRotation hv t).map_add
  have hs := (rotF_isRotation hv t).map_smul
  have h0 : rotF t v 0 = 0 := by simpa using hs 0 0
  have e : ∀ a : Pt, ((mapPos (rotF t v) B).map fun b =>
      w ⟨a.mass, rotF t v a.pos⟩ b • (b.pos - rotF t v a.pos)).sum =
      rotF t v (B.map fun b => w a b • (b.pos - a.pos)).sum := by
    intro a
    rw [mapPos, List.map_map, map_list_sum _ hf h0, List.map_map]
    congr 1
    apply List.map_congr_left; intro b _
    simp only [Function.comp, hw, hs, rotF_sub]
  constructor
  · rw [totF, mapPos.eq_def _ A, List.map_map, totF, map_list_sum _ hf h0, List.map_map]
    congr 1
    apply List.map_congr_left; intro a _
    simp only [Function.comp, e]
  · rw [totT, mapPos.eq_def _ A, List.map_map, totT, map_list_sum _ hf h0, List.map_map]
    congr 1
    apply List.map_congr_left; intro a _
    simp only [Function.comp, e]
    exact rotR_cross _ (unitOf_unit hv) _ _ _

theorem apart_rotate {v : V3} (hv : v ≠ 0) (t : ℝ) (A B : PtArray) :
    Apart (mapPos (rotF t v) A) (mapPos (rotF t v) B) ↔ Apart A B := by
  simp [Apart, mapPos, (rotF_injective hv t).eq_iff]

theorem gW_rot {v : V3} (hv : v ≠ 0) (t : ℝ) (p q : Pt) :
    gW ⟨p.mass, rotF t v p.pos⟩ ⟨q.mass, rotF t v q.pos⟩ = gW p q := by
  simp only [gW, ← rotF_sub, rotF_modulus hv]

theorem yW_rot (alpha lmbd : ℝ) {v : V3} (hv : v ≠ 0) (t : ℝ) (p q : Pt) :
    yW alpha lmbd ⟨p.mass, rotF t v p.pos⟩ ⟨q.mass, rotF t v q.pos⟩ = yW alpha lmbd p q := by
  simp only [yW, ← rotF_sub, rotF_modulus hv]

/-- C05 (gravity): rotating both arrays rotates force and torque by the same rotation. -/
theorem C05_gravity_rotation (A B : PtArray) (t : ℝ) (v : V3) (hv : v ≠ 0) :
    ∃ f : V3 → V3, IsRotationAbout v t f ∧ ∃ A' B',
      rotate_point_array A t v = some A' ∧ rotate_point_array B t v = some B' ∧
      point_matrix_gravity A' B' =
        (point_matrix_gravity A B).map fun r => (f r.1, f r.2) := by
  refine ⟨rotF t v, rotF_isRotation hv t, mapPos (rotF t v) A, mapPos (rotF t v) B,
    rotate_some hv t A, rotate_some hv t B, ?_⟩
  by_cases h : Apart A B
  · have ht := tot_rotate gW hv t (gW_rot hv t) A B
    rw [pmg_some h, pmg_some ((apart_rotate hv t A B).2 h), ht.1, ht.2]; rfl
  · rw [pmg_none h, pmg_none (fun h' => h ((apart_rotate hv t A B).1 h'))]; rfl

/-- C05 (Yukawa). -/
theorem C05_yukawa_rotation (A B : PtArray) (t : ℝ) (v : V3) (hv : v ≠ 0)
    (alpha lmbd : ℝ) (hl : lmbd ≠ 0) :
    ∃ f : V3 → V3, IsRotationAbout v t f ∧ ∃ A' B',
      rotate_point_array A t v = some A' ∧ rotate_point_array B t v = some B' ∧
      point_matrix_yukawa A' B' alpha lmbd =
        (point_matrix_yukawa A B alpha lmbd).map fun r => (f r.1, f r.2) := by
  refine ⟨rotF t v, rotF_isRotation hv t, mapPos (rotF t v) A, mapPos (rotF t v) B,
    rotate_some hv t A, rotate_some hv t B, ?_⟩
  by_cases h : Apart A B
  · have ht := tot_rotate _ hv t (yW_rot alpha lmbd hv t) A B
    rw [pmy_some hl h, pmy_some hl ((apart_rotate hv t A B).2 h), ht.1, ht.2]; rfl
  · rw [pmy_none h, pmy_none (fun h' => h ((apart_rotate hv t A B).1 h'))]; rfl

/-! ## C06: `rotate_point_array` is the proper rotation about the axis -/

/-- The textbook description determines the map: two maps that are rotations about the same
non-zero axis by the same angle are equal. -/
theorem isRotationAbout_unique {v : V3} (hv : v ≠ 0) {t : ℝ} {f g : V3 → V3}
    (hf : IsRotationAbout v t f) (hg : IsRotationAbout v t g) : f = g := by
  funext x
  have hvv : v ⬝ᵥ v ≠ 0 := by
    intro e; exact hv ((modulus_eq_zero v).1 (by rw [modulus_eq_dot, e, Real.sqrt_zero]))
  set c := (v ⬝ᵥ x) / (v ⬝ᵥ v)
  have hx : x = c • v + (x - c • v) := by simp
  have hp : v ⬝ᵥ (x - c • v) = 0 := by
    rw [dotProduct_sub, dotProduct_smul, smul_eq_mul, div_mul_cancel₀ _ hvv, sub_self]
  rw [hx, hf.map_add, hg.map_add, hf.map_smul, hg.map_smul, hf.axis, hg.axis, hf.plane _ hp,
    hg.plane _ hp]

/-- C06: with a non-zero axis every row keeps its mass and its position goes through the unique
rotation by `theta` about the axis. -/
theorem C06_rotate_is_rotation (t : ℝ) (v : V3) (hv : v ≠ 0) :
    ∃! f : V3 → V3, IsRotationAbout v t f ∧
      ∀ A, rotate_point_array A t v = some (A.map fun p => ⟨p.mass, f p.pos⟩) :=
  ⟨rotF t v, ⟨rotF_isRotation hv t, rotate_some hv t⟩,
    fun _ hg => isRotationAbout_unique hv hg.1 (rotF_isRotation hv t)⟩

/-- C06: a rotation about an axis preserves inner products, and vector products (so distances and
orientation).  Stated for any map meeting the textbook description. -/
theorem C06_rotation_rigid {v : V3} (hv : v ≠ 0) {t : ℝ} {f : V3 → V3}
    (hf : IsRotationAbout v t f) (x y : V3) :
    f x ⬝ᵥ f y = x ⬝ᵥ y ∧ dist3 (f x) (f y) = dist3 x y ∧
      crossProduct (f x) (f y) = f (crossProduct x y) := by
  rw [isRotationAbout_unique hv hf (rotF_isRotation hv t)]
  refine ⟨rotR_dot _ (unitOf_unit hv) _ _ _, ?_, rotR_cross _ (unitOf_unit hv) _ _ _⟩
  rw [dist3_eq, dist3_eq, ← rotF_sub, rotF_modulus hv]

theorem unitOf_smul {v : V3} {c : ℝ} (hc : 0 < c) : unitOf (c • v) = unitOf v := by
  have : modulus (c • v) = c * modulus v := by
    rw [modulus_eq_dot, modulus_eq_dot, dotProduct_smul, smul_dotProduct, smul_eq_mul, smul_eq_mul,
      ← mul_assoc, Real.sqrt_mul (by positivity), Real.sqrt_mul_self hc.le]
  ext i
  simp only [unitOf, this, Pi.smul_apply, smul_eq_mul]
  rw [mul_div_mul_left _ _ hc.ne']

/-- C06: only the direction of the axis vector matters. -/
theorem C06_axis_length (A : PtArray) (t c : ℝ) (hc : 0 < c) (v : V3) :
    rotate_point_array A t (c • v) = rotate_point_array A t v := by
  by_cases hv : v = 0
  · simp [hv]
  · rw [rotate_some hv, rotate_some (smul_ne_zero hc.ne' hv)]
    simp only [rotF, unitOf_smul hc]

/-- C06: a zero axis vector makes every non-empty result undefined. -/
theorem C06_zero_axis (A : PtArray) (t : ℝ) (hA : A ≠ []) : rotate_point_array A t 0 = none := by
  rw [rotate_point_array, rotMatrix_none]
  obtain ⟨a, ha⟩ := List.exists_mem_of_ne_nil _ hA
  exact mapM_opt_none _ _ ⟨a, ha, rfl⟩

example : ∃! f : V3 → V3, IsRotationAbout ![1, 2, 2] 1 f ∧
    ∀ A, rotate_point_array A 1 ![1, 2, 2] = some (A.map fun p => ⟨p.mass, f p.pos⟩) :=
  C06_rotate_is_rotation 1 _ (fun e => by have := congrFun e 0; simp at this)

/-! ## C07: composition -/

/-- C07: rotations about one axis add up. -/
theorem C07_rotate_add (A : PtArray) (a b : ℝ) (v : V3) :
    (rotate_point_array A a v).bind (fun A' => rotate_point_array A' b v) =
      rotate_point_array A (b + a) v := by
  by_cases hv : v = 0
  · subst hv
    by_cases hA : A = []
    · subst hA; rfl
    · rw [C06_zero_axis A a hA, C06_zero_axis A _ hA]; rfl
  · rw [rotate_some hv, rotate_some hv, Option.bind_some, rotate_some hv, List.map_map]
    congr 1
    apply List.map_congr_left; intro p _
    simp only [Function.comp, rotF, Matrix.mulVec_mulVec, rotR_mul _ (unitOf_unit hv)]

/-- C07: rotating by a whole number of turns changes nothing. -/
theorem C07_rotate_full_turn (A : PtArray) (n : ℤ) (v : V3) (hv : v ≠ 0) :
    rotate_point_array A (n * (2 * Real.pi)) v = some A := by
  rw [rotate_some hv]
  have : ∀ x, rotF (n * (2 * Real.pi)) v x = x := by
    intro x
    have hs : Real.sin (n * (2 * Real.pi)) = 0 := by
      have := Real.sin_add_int_mul_two_pi 0 n; simpa using this
    have hc : Real.cos (n * (2 * Real.pi)) = 1 := Real.cos_int_mul_two_pi n
    rw [rotF, rotR_mulVec, hs, hc]; simp
  simp [this]

/-- C07: any sequence of rotations about one axis is the rotation by the sum of the angles. -/
theorem C07_rotate_sequence (v : V3) (hv : v ≠ 0) : ∀ (as : List ℝ) (A : PtArray),
    as.foldlM (fun A' a => rotate_point_array A' a v) A = rotate_point_array A as.sum v
  | [], A => by
    have := C07_rotate_full_turn A 0 v hv
    simpa using this.symm
  | a :: as, A => by
    rw [List.foldlM_cons, rotate_some hv]
    change (List.foldlM _ _ as) = _
    rw [C07_rotate_sequence v hv as, List.sum_cons, add_comm, ← C07_rotate_add, rotate_some hv a A]
    rfl

/-- C07: translations add up. -/
theorem C07_translate_add (A : PtArray) (u v : V3) :
    translate_point_array (translate_point_array A u) v = translate_point_array A (u + v) := by
  simp [translate_point_array, translate_point, Function.comp_def, add_assoc]

theorem translate_zero (A : PtArray) : translate_point_array A 0 = A := by
  have : translate_point 0 = id := by funext p; simp [translate_point]
  simp [translate_point_array, this]

/-- C07: any sequence of translations is the translation by the sum. -/
theorem C07_translate_sequence : ∀ (us : List V3) (A : PtArray),
    us.foldl translate_point_array A = translate_point_array A us.sum
  | [], A => by simp [translate_zero]
  | u :: us, A => by
    rw [List.foldl_cons, C07_translate_sequence us, C07_translate_add, List.sum_cons]

/-- C07: translating back restores the array, and no mass or row is ever lost. -/
theorem C07_translate_inverse (A : PtArray) (u : V3) :
    translate_point_array (translate_point_array A u) (-u) = A ∧
      (translate_point_array A u).map Pt.mass = A.map Pt.mass := by
  constructor
  · rw [C07_translate_add, add_neg_cancel, translate_zero]
  · simp [translate_point_array, translate_point, Function.comp_def]

/-! ## C09: coincident points -/

/-- C09: the result is defined exactly when no pair coincides. -/
theorem C09_gravity_defined_iff (A B : PtArray) :
    (point_matrix_gravity A B).isSome ↔ Apart A B := by
  by_cases h : Apart A B
  · simp [pmg_some h, h]
  · simp [pmg_none h, h]

/-- C09: the same for the Yukawa force, which in addition is undefined for `lmbd = 0` as soon as
there is a pair of points. -/
theorem C09_yukawa_defined_iff (A B : PtArray) (alpha lmbd : ℝ) :
    (point_matrix_yukawa A B alpha lmbd).isSome ↔
      Apart A B ∧ (lmbd ≠ 0 ∨ A = [] ∨ B = []) := by
  by_cases h : Apart A B
  · by_cases hl : lmbd = 0
    · by_cases hA : A = []
      · subst hA; simp [point_matrix_yukawa, accumulate, h]
      · by_cases hB : B = []
        · subst hB
          simp only [h, hA, or_true, and_self, iff_true]
          rw [point_matrix_yukawa, accumulate_some _ (fun _ => 0) _ _ (fun a _ => by
            simp [yukawa_array])]
          rfl
        · simp only [h, hl, ne_eq, not_true, hA, hB, or_self, and_false, iff_false]
          obtain ⟨a, ha⟩ := List.exists_mem_of_ne_nil _ hA
          obtain ⟨b, hb⟩ := List.exists_mem_of_ne_nil _ hB
          rw [point_matrix_yukawa, accumulate_none]
          · simp
          · exact ⟨a, ha, yukawa_array_none ⟨b, hb, Or.inr rfl⟩⟩
    · simp [pmy_some hl h, h, hl]
  · simp [pmy_none h, h]

/-- C09: the force on one point mass is defined exactly when no point of the array coincides with it (for the Yukawa force: and `lmbd` is not zero,
unless the array is empty). -/
theorem C09_array_defined_iff (p : Pt) (B : PtArray) (alpha lmbd : ℝ) :
    ((gmmr2_array p B).isSome ↔ ∀ b ∈ B, p.pos ≠ b.pos) ∧
    ((yukawa_array p B alpha lmbd).isSome ↔ ∀ b ∈ B, p.pos ≠ b.pos ∧ lmbd ≠ 0) := by
  constructor
  · by_cases h : ∀ b ∈ B, p.pos ≠ b.pos
    · simp only [gmmr2_array_some h, Option.isSome_some, true_iff]; exact h
    · push Not at h
      simp only [gmmr2_array_none h, Option.isSome_none, Bool.false_eq_true, false_iff]
      push Not; exact h
  · by_cases h : ∀ b ∈ B, p.pos ≠ b.pos ∧ lmbd ≠ 0
    · refine iff_of_true ?_ h
      cases B with
      | nil => rfl
      | cons b B => rw [yukawa_array_some (h b List.mem_cons_self).2 fun b hb => (h b hb).1]; rfl
    · refine iff_of_false ?_ h
      push Not at h
      obtain ⟨b, hb, h⟩ := h
      rw [yukawa_array_none ⟨b, hb, by by_cases e : p.pos = b.pos; exacts [.inl e, .inr (h e)]⟩]
      simp

/-- C09: one coincident pair, even of zero mass, makes everything undefined. -/
example (A B : PtArray) (x : V3) :
    point_matrix_gravity (⟨0, x⟩ :: A) (⟨0, x⟩ :: B) = none :=
  pmg_none (fun h => h _ List.mem_cons_self _ List.mem_cons_self rfl)

end Newt
