import Verif.Proofs.MomRounding
import Verif.Props.Pg2Multi
import Verif.Props.LowMoments

/-!
# C127: rounding errors of the multipole moments of point arrays
-/

namespace Newt

open Spec Flt

variable {a : Arith} {u : ℝ} {e : ℕ → ℝ}

theorem gross_nonneg (w : Pt → ℝ) (A : PtArray) (hw : ∀ p ∈ A, 0 ≤ w p) : 0 ≤ gross w A := by
  refine List.sum_nonneg fun x hx => ?_
  obtain ⟨p, hp, rfl⟩ := List.mem_map.1 hx
  exact mul_nonneg (abs_nonneg _) (hw p hp)

/-- The symmetric completion does not enlarge errors. -/
theorem fillNeg_err {L : ℕ} (f S : ℕ → ℤ → ℂ) (l : ℕ) (hl : l ≤ L) (E : ℝ) (hE : 0 ≤ E)
    (hf : ∀ m : ℤ, m.natAbs ≤ L → m < 0 → f l m = 0) (hS : ∀ m : ℤ, S l (-m) = (-1) ^ m.natAbs * (starRingEnd ℂ) (S l m))
    (he : ∀ m : ℤ, 0 ≤ m → m ≤ L → ‖f l m - S l m‖ ≤ E) (m : ℤ) (hm : m.natAbs ≤ L) :
    ‖(Mom.ofFn L f).fillNeg.get l m - S l m‖ ≤ E := by
  have hm' : (-m).natAbs ≤ L := by omega
  rw [Mom.get_fillNeg _ hl hm, Mom.get_ofFn _ hl hm, Mom.get_ofFn _ hl hm']
  dsimp only
  rcases lt_trichotomy m 0 with h | h | h
  · rw [if_neg (by omega), hf m hm h, zero_add]
    have h1 := hS (-m)
    rw [neg_neg, Int.natAbs_neg] at h1
    rw [h1, mul_comm, ← mul_sub, ← map_sub, norm_mul, norm_pow, norm_neg, norm_one, one_pow, one_mul, RCLike.norm_conj]
    exact he (-m) (by omega) (by omega)
  · subst h
    rw [if_pos rfl]
    have h1 := hS 0
    simp only [neg_zero, Int.natAbs_zero, pow_zero, one_mul] at h1
    have h2 := he 0 le_rfl (by omega)
    have e1 : (f l 0 + (starRingEnd ℂ) (f l (-0)) * (-1) ^ (0 : ℤ).natAbs) / 2 - S l 0 =
        ((f l 0 - S l 0) + (starRingEnd ℂ) (f l 0 - S l 0)) / 2 := by
      rw [map_sub, ← h1]; simp; ring
    rw [e1, norm_div, Complex.norm_two, div_le_iff₀ (by norm_num)]
    refine (norm_add_le _ _).trans ?_
    rw [RCLike.norm_conj]
    linarith
  · rw [if_neg (by omega), hf (-m) hm' (by omega)]
    simp only [map_zero, zero_mul, add_zero]
    exact he m h.le (by omega)

theorem q00_err (h0 : 0 ≤ u) (h1 : u < 1) (ha : Accurate a u e) {A : PtArray} {s : ℝ} (h : Q00 a A s) :
    ‖(s : ℂ) - innerMoment A 0 0‖ ≤ gross (fun _ => 1) A * (relErr u (3 + A.length) * harmMax 0) := by
  obtain ⟨t, c, xs, ht, hc, hx, hs⟩ := h
  have n1 : Near u (2 * 1) (4 * Real.pi) t := near_mono h0 h1 (by omega) (near_of_rd h0 h1 (ha.op _ _ ht))
  have n2 : Near u 2 (Real.sqrt (4 * Real.pi)) c := near_rd h0 h1 (near_sqrt h0 h1 (by have := Real.pi_pos; positivity) n1) (ha.op _ _ hc)
  have n3 : ∀ (p : Pt) (x : ℝ), a.op (p.mass / c) x → Near u 3 (p.mass / Real.sqrt (4 * Real.pi)) x := fun p x hx =>
    near_rd h0 h1 (near_div (j := 0) h1 (near_refl h0 h1 0 p.mass) n2) (ha.op _ _ hx)
  have hY : harmMax 0 = 1 / Real.sqrt (4 * Real.pi) := by
    rw [harmMax]; simp
  have hrows : List.Forall₂ (fun (p : Pt) (z : ℂ) => ∃ Y' : ℂ, Near u 3 (p.mass * Y'.re) z.re ∧ Near u 3 (p.mass * Y'.im) z.im ∧
      ‖Y' - ((harmMax 0 : ℝ) : ℂ)‖ ≤ 0) A (xs.map fun x : ℝ => (x : ℂ)) := by
    rw [List.forall₂_map_right_iff]
    refine hx.imp fun p x hpx => ⟨((harmMax 0 : ℝ) : ℂ), ?_, ?_, by simp⟩
    · rw [Complex.ofReal_re, Complex.ofReal_re, hY, mul_one_div]; exact n3 p x hpx
    · rw [Complex.ofReal_im, Complex.ofReal_im, mul_zero]; exact near_refl h0 h1 _ _
  have hsum : ‖(s : ℂ) - (xs.map fun x : ℝ => (x : ℂ)).sum‖ ≤ relErr u (xs.map fun x : ℝ => (x : ℂ)).length * ((xs.map fun x : ℝ => (x : ℂ)).map fun z => ‖z‖).sum := by
    have h2 := sum_err h0 h1 ha hs
    have e1 : (xs.map fun x : ℝ => (x : ℂ)).sum = ((xs.sum : ℝ) : ℂ) := by
      exact (_root_.map_list_sum Complex.ofRealHom xs).symm
    rw [e1, ← Complex.ofReal_sub, Complex.norm_real, Real.norm_eq_abs, List.length_map, List.map_map]
    refine h2.trans_eq ?_
    congr 3
    funext x
    simp
  have := rows_err h0 h1 (fun p : Pt => p.mass) (fun _ => ((harmMax 0 : ℝ) : ℂ)) 3 A.length (harmMax 0) 0
    (fun _ _ => by rw [Complex.norm_real, Real.norm_eq_abs, abs_of_nonneg (harmMax_nonneg 0)]) hrows hsum le_rfl
  have e1 : innerMoment A 0 0 = (A.map fun p => (p.mass : ℂ) * ((harmMax 0 : ℝ) : ℂ)).sum := by
    rw [← q00_eq]
    congr 1
    apply List.map_congr_left
    intro p _
    rw [hY]; push_cast; ring
  rw [e1]
  simpa [gross] using this

open Classical in
theorem gross_filter (w : Pt → ℝ) (A : PtArray) (hw : ∀ p ∈ A, 0 ≤ w p) :
    ((A.filter fun p => decide (p.pos ≠ 0)).map fun p => |p.mass| * w p).sum ≤ gross w A := by
  induction A with
  | nil => simp [gross]
  | cons p A ih =>
    have h1 := ih fun q hq => hw q (List.mem_cons_of_mem _ hq)
    have h2 : 0 ≤ |p.mass| * w p := mul_nonneg (abs_nonneg _) (hw p List.mem_cons_self)
    have e1 : gross w (p :: A) = |p.mass| * w p + gross w A := by simp [gross]
    rw [List.filter_cons, e1]
    by_cases hp : p.pos = 0
    · rw [if_neg (by simp [hp])]; linarith
    · rw [if_pos (decide_eq_true (show p.pos ≠ 0 from hp)), List.map_cons, List.sum_cons]; linarith

open Classical in
theorem innerMoment_filter (A : PtArray) (l : ℕ) (hl : l ≠ 0) (m : ℤ) :
    innerMoment A l m = ((A.filter fun p => decide (p.pos ≠ 0)).map fun p => (p.mass : ℂ) * solidS l m p.pos).sum := by
  induction A with
  | nil => rfl
  | cons p A ih =>
    rw [innerMoment_cons, ih, List.filter_cons]
    by_cases hp : p.pos = 0
    · rw [if_neg (by simp [hp]), hp, solidS, Rsol_at_zero l hl]; simp
    · rw [if_pos (decide_eq_true (show p.pos ≠ 0 from hp)), List.map_cons, List.sum_cons]

theorem harmErr_nonneg (h0 : 0 ≤ u) (ha : Accurate a u e) {d : ℝ} (hd0 : 0 ≤ d) (l : ℕ) : 0 ≤ harmErr u d e l := by
  have := ha.nonneg l
  have := harmMax_nonneg l
  have := Real.pi_pos
  rw [harmErr]
  positivity

open Classical in
/-- The error of the inner moments, for a given accuracy `d` of the polar angles. -/
theorem inner_err (h0 : 0 ≤ u) (h1 : u ≤ 1 / 4) (ha : Accurate a u e) {d : ℝ} (hd0 : 0 ≤ d) {L : ℕ} {A : PtArray} {q : Mom L} (h : Flt.qmoments a L A q)
    (hd : ∀ p ∈ A, Real.sqrt (relErr u 4 / 2) ≤ d ∨ relErr u 4 * originDist p ≤ d * cylRad p) :
    ∃ q0, Newt.qmoments L A = some q0 ∧ ∀ l m, l ≤ L → m.natAbs ≤ L → ‖q.get l m - q0.get l m‖ ≤
      gross (fun p => originDist p ^ l) A * (relErr u (3 * l + 3 + A.length) * (harmMax l + harmErr u d e l) + harmErr u d e l) := by
  have h1' : u < 1 := by linarith
  obtain ⟨f, rs, ang, q00, hrs, hang, hq0, hcase, rfl⟩ := h
  have hoff : (offRows A rs).length = (ridsOf A).length := by
    rw [← filter_length, ← offRows_fst h0 h1' ha hrs, List.length_map]
  have hlen : ang.length = (ridsOf A).length := by rw [← hang.length_eq, hoff]
  have hO : L = 0 ∨ OriginLast A := by
    rcases hcase with h | ⟨ang', h, -⟩
    · exact Or.inl h
    · rw [rids_eq h0 h1' ha hrs] at h
      exact Or.inr (takeIds_same A hlen h).1
  refine ⟨_, qmoments_closed L A hO, fun l m hl hm => ?_⟩
  rw [Mom.get_ofFn _ hl hm]
  have hY0 := harmMax_nonneg l
  have hH0 := harmErr_nonneg h0 ha hd0 l
  have hg0 : 0 ≤ gross (fun p => originDist p ^ l) A := gross_nonneg _ _ fun p _ => pow_nonneg (Real.sqrt_nonneg _) l
  have hK0 := relErr_nonneg h0 h1' (3 * l + 3 + A.length)
  refine fillNeg_err _ (innerMoment A) l hl _ (by positivity) ?_ (innerMoment_neg A l) ?_ m hm
  · intro m _ hm
    by_cases hl0 : l = 0
    · rw [if_pos hl0, if_neg (by omega)]
    · rw [if_neg hl0, if_neg (by omega)]
  · intro m hm0 hmL
    by_cases hl0 : l = 0
    · subst hl0
      rw [if_pos rfl]
      by_cases hm1 : m = 0
      · subst hm1
        rw [if_pos rfl]
        refine (q00_err h0 h1' ha hq0).trans ?_
        simp only [pow_zero] at hg0 ⊢
        refine mul_le_mul_of_nonneg_left ?_ hg0
        have : relErr u (3 * 0 + 3 + A.length) * harmMax 0 ≤ relErr u (3 * 0 + 3 + A.length) * (harmMax 0 + harmErr u d e 0) := by
          gcongr; linarith
        rw [mul_zero, zero_add] at this ⊢
        linarith
      · rw [if_neg hm1, innerMoment_out A 0 m (by omega), sub_self, norm_zero]
        positivity
    · rw [if_neg hl0]
      by_cases hml : m ≤ l
      · rw [if_pos ⟨hm0, hml⟩]
        rcases hcase with h | ⟨ang', htake, hterms⟩
        · omega
        rw [rids_eq h0 h1' ha hrs] at htake
        obtain ⟨-, rfl⟩ := takeIds_same A hlen htake
        obtain ⟨zs, hz, hs⟩ := hterms l m (by omega) hl hm0 hml
        have hmA : m.natAbs ≤ l := by omega
        have hmem : ∀ x ∈ (offRows A rs).zip ang', x.1.1 ∈ A ∧ x.1.1.pos ≠ 0 ∧ Rad a x.1.1 x.1.2 ∧ Angles a (x.1.1, x.1.2) x.2 := by
          rintro ⟨⟨p, r⟩, g⟩ hx
          have hA := List.forall₂_zip hang hx
          have hx1 := (List.of_mem_zip hx).1
          rw [offRows, List.mem_filter] at hx1
          obtain ⟨hx1, hx2⟩ := hx1
          have hR := List.forall₂_zip hrs hx1
          have hr : r ≠ 0 := of_decide_eq_true hx2
          exact ⟨(List.of_mem_zip hx1).1, fun e => hr ((rad_zero_iff h0 h1' ha hR).2 e), hR, hA⟩
        have hrows := forall₂_imp_mem hz (S := fun x z => ∃ Y' : ℂ,
            Near u (3 * l + 3) (x.1.1.mass * originDist x.1.1 ^ l * Y'.re) z.re ∧ Near u (3 * l + 3) (x.1.1.mass * originDist x.1.1 ^ l * Y'.im) z.im ∧
              ‖Y' - (starRingEnd ℂ) (sphHarm m l (phiOf x.1.1) (thetaOf x.1.1))‖ ≤ harmErr u d e l) fun x hx z hxz => by
          obtain ⟨m1, m2, m3, m4⟩ := hmem x hx
          exact inner_row h0 h1 ha m2 hd0 m3 m4 (hd _ m1) hmA hxz
        have hfst : ((offRows A rs).zip ang').map (fun x => x.1.1) = A.filter fun p => decide (p.pos ≠ 0) := by
          rw [← offRows_fst h0 h1' ha hrs]
          have : (fun x : (Pt × ℝ) × ℝ × ℝ => x.1.1) = Prod.fst ∘ Prod.fst := rfl
          rw [this, ← List.map_map, List.map_fst_zip hang.length_eq.le]
        have hN : ((offRows A rs).zip ang').length ≤ A.length := by
          rw [← List.length_map (f := fun x : (Pt × ℝ) × ℝ × ℝ => x.1.1), hfst]
          exact List.length_filter_le _ _
        have := rows_err h0 h1' (fun x : (Pt × ℝ) × ℝ × ℝ => x.1.1.mass * originDist x.1.1 ^ l)
          (fun x => (starRingEnd ℂ) (sphHarm m l (phiOf x.1.1) (thetaOf x.1.1))) (3 * l + 3) A.length (harmMax l) (harmErr u d e l)
          (fun x _ => by rw [RCLike.norm_conj]; exact sphHarm_le l m hmA _ _) hrows (csum_err h0 h1' ha hs) hN
        have e1 : (((offRows A rs).zip ang').map fun x => ((x.1.1.mass * originDist x.1.1 ^ l : ℝ) : ℂ) *
            (starRingEnd ℂ) (sphHarm m l (phiOf x.1.1) (thetaOf x.1.1))).sum = innerMoment A l m := by
          rw [innerMoment_filter A l hl0 m, ← hfst, List.map_map]
          congr 1
          apply List.map_congr_left
          intro x hx
          simp only [Function.comp]
          rw [← sphHarm_row x.1.1 (hmem x hx).2.1 l m hmA]
          have : originDist x.1.1 = rOf x.1.1 := rfl
          rw [this]; push_cast; ring
        have e2 : (((offRows A rs).zip ang').map fun x => |x.1.1.mass * originDist x.1.1 ^ l|).sum ≤ gross (fun p => originDist p ^ l) A := by
          refine le_trans (le_of_eq ?_) (gross_filter (fun p => originDist p ^ l) A fun p _ => pow_nonneg (Real.sqrt_nonneg _) l)
          rw [← hfst, List.map_map]
          congr 1
          apply List.map_congr_left
          intro x hx
          simp only [Function.comp]
          rw [abs_mul, abs_of_nonneg (show 0 ≤ originDist x.1.1 ^ l from pow_nonneg (Real.sqrt_nonneg _) l)]
        rw [e1] at this
        refine this.trans (mul_le_mul_of_nonneg_right e2 ?_)
        positivity
      · rw [if_neg (by omega), innerMoment_out A l m (by omega), sub_self, norm_zero]
        positivity

/-- The error of the outer moments, for a given accuracy `d` of the polar angles. -/
theorem outer_err (h0 : 0 ≤ u) (h1 : u ≤ 1 / 4) (ha : Accurate a u e) {d : ℝ} (hd0 : 0 ≤ d) {L : ℕ} {A : PtArray} {Q : Mom L} (h : Flt.Qmomentsb a L A Q)
    (hd : ∀ p ∈ A, Real.sqrt (relErr u 4 / 2) ≤ d ∨ relErr u 4 * originDist p ≤ d * cylRad p) {l : ℕ} {m : ℤ} (hl : l ≤ L) (hm : m.natAbs ≤ L) :
    ‖Q.get l m - (Newt.Qmomentsb L A).get l m‖ ≤
      gross (fun p => 1 / originDist p ^ (l + 1)) A * (relErr u (3 * l + 7 + A.length) * (harmMax l + harmErr u d e l) + harmErr u d e l) := by
  have h1' : u < 1 := by linarith
  obtain ⟨rs, hrs, hcase⟩ := h
  have hY0 := harmMax_nonneg l
  have hH0 := harmErr_nonneg h0 ha hd0 l
  have hg0 : 0 ≤ gross (fun p => 1 / originDist p ^ (l + 1)) A := gross_nonneg _ _ fun p _ =>
    one_div_nonneg.2 (pow_nonneg (Real.sqrt_nonneg _) (l + 1))
  have hK0 := relErr_nonneg h0 h1' (3 * l + 7 + A.length)
  have hzero : 0 ∈ rs ↔ ¬ OffOrigin A := by
    clear hcase hg0 hK0 hd hd0
    rw [← anyAtOrigin_iff]
    induction hrs with
    | nil => simp [anyAtOrigin]
    | @cons p r A rs hp _ ih =>
      have := rad_zero_iff h0 h1' ha hp
      rw [List.mem_cons, ih]
      simp only [anyAtOrigin, List.mem_cons, exists_eq_or_imp, rOf_eq_zero, eq_comm (a := (0 : ℝ)), this]
  rcases hcase with ⟨hz, rfl⟩ | ⟨hz, f, ang, hang, hterms, rfl⟩
  · have hA : anyAtOrigin A := (anyAtOrigin_iff A).2 (hzero.1 hz)
    rw [Newt.Qmomentsb, if_pos hA, sub_self, norm_zero]
    positivity
  · have hA : OffOrigin A := by by_contra hc; exact hz (hzero.2 hc)
    rw [Qmomentsb_closed L A hA, Mom.get_ofFn _ hl hm]
    refine fillNeg_err _ (outerMoment A) l hl _ (by positivity) ?_ (outerMoment_neg A l) ?_ m hm
    · intro m _ hm
      rw [if_neg (by omega)]
    · intro m hm0 hmL
      by_cases hml : m ≤ l
      · rw [if_pos ⟨hm0, hml⟩]
        obtain ⟨zs, hz, hs⟩ := hterms l m hl hm0 hml
        have hmA : m.natAbs ≤ l := by omega
        have hmem : ∀ x ∈ (A.zip rs).zip ang, x.1.1 ∈ A ∧ x.1.1.pos ≠ 0 ∧ Rad a x.1.1 x.1.2 ∧ Angles a (x.1.1, x.1.2) x.2 := by
          rintro ⟨⟨p, r⟩, g⟩ hx
          have hAn := List.forall₂_zip hang hx
          have hx1 := (List.of_mem_zip hx).1
          have hp := (List.of_mem_zip hx1).1
          exact ⟨hp, hA p hp, List.forall₂_zip hrs hx1, hAn⟩
        have hrows := forall₂_imp_mem hz (S := fun x z => ∃ Y' : ℂ,
            Near u (3 * l + 7) (x.1.1.mass / originDist x.1.1 ^ (l + 1) * Y'.re) z.re ∧ Near u (3 * l + 7) (x.1.1.mass / originDist x.1.1 ^ (l + 1) * Y'.im) z.im ∧
              ‖Y' - sphHarm m l (phiOf x.1.1) (thetaOf x.1.1)‖ ≤ harmErr u d e l) fun x hx z hxz => by
          obtain ⟨m1, m2, m3, m4⟩ := hmem x hx
          exact outer_row h0 h1 ha m2 hd0 m3 m4 (hd _ m1) hmA hxz
        have hfst : ((A.zip rs).zip ang).map (fun x => x.1.1) = A := by
          have : (fun x : (Pt × ℝ) × ℝ × ℝ => x.1.1) = Prod.fst ∘ Prod.fst := rfl
          rw [this, ← List.map_map, List.map_fst_zip hang.length_eq.le, List.map_fst_zip hrs.length_eq.le]
        have hN : ((A.zip rs).zip ang).length ≤ A.length := by
          conv_rhs => rw [← hfst]
          rw [List.length_map]
        have := rows_err h0 h1' (fun x : (Pt × ℝ) × ℝ × ℝ => x.1.1.mass / originDist x.1.1 ^ (l + 1))
          (fun x => sphHarm m l (phiOf x.1.1) (thetaOf x.1.1)) (3 * l + 7) A.length (harmMax l) (harmErr u d e l)
          (fun x _ => sphHarm_le l m hmA _ _) hrows (csum_err h0 h1' ha hs) hN
        have e1 : (((A.zip rs).zip ang).map fun x => ((x.1.1.mass / originDist x.1.1 ^ (l + 1) : ℝ) : ℂ) *
            sphHarm m l (phiOf x.1.1) (thetaOf x.1.1)).sum = outerMoment A l m := by
          rw [← outer_sum A hA l m hmA]
          conv_rhs => rw [← hfst, List.map_map]
          congr 1
          apply List.map_congr_left
          intro x hx
          simp only [Function.comp, outerTerm]
          have : originDist x.1.1 = rOf x.1.1 := rfl
          rw [this]; push_cast; ring
        have e2 : (((A.zip rs).zip ang).map fun x => |x.1.1.mass / originDist x.1.1 ^ (l + 1)|).sum = gross (fun p => 1 / originDist p ^ (l + 1)) A := by
          rw [gross]
          conv_rhs => rw [← hfst, List.map_map]
          congr 1
          apply List.map_congr_left
          intro x hx
          simp only [Function.comp]
          rw [abs_div, abs_of_nonneg (show 0 ≤ originDist x.1.1 ^ (l + 1) from pow_nonneg (Real.sqrt_nonneg _) _), mul_one_div]
        rw [e1, e2] at this
        exact this
      · rw [if_neg (by omega), outerMoment_out A l m (by omega), sub_self, norm_zero]
        positivity

/-- **C127 (inner moments, any array).**  Every run of `qmoments` returns only if the exact call returns, and each moment is within the stated
distance of the exact one.  The polar angles are accurate to about the square root of the unit of rounding only. -/
theorem C127_inner (h0 : 0 ≤ u) (h1 : u ≤ 1 / 4) (ha : Accurate a u e) {L : ℕ} {A : PtArray} {q : Mom L} (h : Flt.qmoments a L A q) :
    ∃ q0, Newt.qmoments L A = some q0 ∧ ∀ l m, l ≤ L → m.natAbs ≤ L → ‖q.get l m - q0.get l m‖ ≤
      gross (fun p => originDist p ^ l) A * (relErr u (3 * l + 3 + A.length) * (harmMax l + harmErr u (Real.sqrt (relErr u 4 / 2)) e l)
        + harmErr u (Real.sqrt (relErr u 4 / 2)) e l) :=
  inner_err h0 h1 ha (Real.sqrt_nonneg _) h fun _ _ => Or.inl le_rfl

theorem offAxis_hyp (h0 : 0 ≤ u) (h1 : u < 1) {A : PtArray} {k : ℝ} (hk : 0 < k) (hA : ∀ p ∈ A, k * originDist p ≤ cylRad p) :
    0 ≤ relErr u 4 / k ∧ ∀ p ∈ A, Real.sqrt (relErr u 4 / 2) ≤ relErr u 4 / k ∨ relErr u 4 * originDist p ≤ relErr u 4 / k * cylRad p := by
  have hE := relErr_nonneg h0 h1 4
  refine ⟨by positivity, fun p hp => Or.inr ?_⟩
  rw [div_mul_eq_mul_div, le_div_iff₀ hk]
  have := mul_le_mul_of_nonneg_left (hA p hp) hE
  linarith

/-- **C127 (inner moments, rows away from the `z` axis).**  If every direction makes an angle with sine at least `k` with the axis, the error is
proportional to the unit of rounding. -/
theorem C127_inner_off_axis (h0 : 0 ≤ u) (h1 : u ≤ 1 / 4) (ha : Accurate a u e) {L : ℕ} {A : PtArray} {q : Mom L} (h : Flt.qmoments a L A q)
    {k : ℝ} (hk : 0 < k) (hA : ∀ p ∈ A, k * originDist p ≤ cylRad p) :
    ∃ q0, Newt.qmoments L A = some q0 ∧ ∀ l m, l ≤ L → m.natAbs ≤ L → ‖q.get l m - q0.get l m‖ ≤
      gross (fun p => originDist p ^ l) A * (relErr u (3 * l + 3 + A.length) * (harmMax l + harmErr u (relErr u 4 / k) e l) + harmErr u (relErr u 4 / k) e l) :=
  inner_err h0 h1 ha (offAxis_hyp h0 (by linarith) hk hA).1 h (offAxis_hyp h0 (by linarith) hk hA).2

/-- **C127 (outer moments, any array).** -/
theorem C127_outer (h0 : 0 ≤ u) (h1 : u ≤ 1 / 4) (ha : Accurate a u e) {L : ℕ} {A : PtArray} {Q : Mom L} (h : Flt.Qmomentsb a L A Q)
    {l : ℕ} {m : ℤ} (hl : l ≤ L) (hm : m.natAbs ≤ L) : ‖Q.get l m - (Newt.Qmomentsb L A).get l m‖ ≤
      gross (fun p => 1 / originDist p ^ (l + 1)) A * (relErr u (3 * l + 7 + A.length) * (harmMax l + harmErr u (Real.sqrt (relErr u 4 / 2)) e l)
        + harmErr u (Real.sqrt (relErr u 4 / 2)) e l) :=
  outer_err h0 h1 ha (Real.sqrt_nonneg _) h (fun _ _ => Or.inl le_rfl) hl hm

/-- **C127 (outer moments, rows away from the `z` axis).** -/
theorem C127_outer_off_axis (h0 : 0 ≤ u) (h1 : u ≤ 1 / 4) (ha : Accurate a u e) {L : ℕ} {A : PtArray} {Q : Mom L} (h : Flt.Qmomentsb a L A Q)
    {k : ℝ} (hk : 0 < k) (hA : ∀ p ∈ A, k * originDist p ≤ cylRad p) {l : ℕ} {m : ℤ} (hl : l ≤ L) (hm : m.natAbs ≤ L) :
    ‖Q.get l m - (Newt.Qmomentsb L A).get l m‖ ≤
      gross (fun p => 1 / originDist p ^ (l + 1)) A * (relErr u (3 * l + 7 + A.length) * (harmMax l + harmErr u (relErr u 4 / k) e l) + harmErr u (relErr u 4 / k) e l) :=
  outer_err h0 h1 ha (offAxis_hyp h0 (by linarith) hk hA).1 h (offAxis_hyp h0 (by linarith) hk hA).2 hl hm

/-! ## Rounding to nearest -/

/-- **C127 (no NaN).**  If every operation is rounded to nearest, the computed radius is never smaller than the computed `|z|`, and the computed
`z/r` never leaves `[-1, 1]`: `arccos` is always defined. -/
theorem C127_no_nan {b : ℕ} (hb : 1 ≤ b) (hop : ∀ x y, a.op x y → Nearest b x y) {p : Pt} (hz : Rep b (p.pos 2)) {r c : ℝ} (hr : Rad a p r)
    (hc : a.op (p.pos 2 / r) c) : |p.pos 2| ≤ r ∧ |c| ≤ 1 := by
  obtain ⟨s, hs, t, t', ht, ht', hr⟩ := hr
  have s0 : ∀ i, 0 ≤ s i := fun i => nearest_ge (hop _ _ (hs i)) (rep_zero b) (by positivity)
  have t0 : 0 ≤ t := nearest_ge (hop _ _ ht) (rep_zero b) (add_nonneg (s0 0) (s0 1))
  have t1 : s 2 ≤ t' := nearest_ge (hop _ _ ht') (hop _ _ (hs 2)).1 (by linarith)
  have h1 : |p.pos 2| ≤ r := nearest_sqrt_sq hb hz (hop _ _ (hs 2)) t1 (hop _ _ hr)
  refine ⟨h1, ?_⟩
  have h2 : |p.pos 2 / r| ≤ 1 := by
    rw [abs_div, abs_of_nonneg ((abs_nonneg _).trans h1)]
    exact div_le_one_of_le₀ h1 ((abs_nonneg _).trans h1)
  obtain ⟨g1, g2⟩ := abs_le.1 h2
  exact abs_le.2 ⟨nearest_ge (hop _ _ hc) (rep_neg (rep_one hb)) g1, nearest_le (hop _ _ hc) (rep_one hb) g2⟩

theorem acc_exists {op : ℝ → ℝ → Prop} (hop : ∀ x, ∃ y, op x y) {n : ℕ} (x : Fin n → ℝ) {S : Finset (Fin n)} (hS : S.Nonempty) : ∃ s, Acc op x S s := by
  induction hS using Finset.Nonempty.cons_induction with
  | singleton j => exact ⟨_, Acc.one j⟩
  | cons j S hj _ ih =>
    obtain ⟨s, hs⟩ := ih
    obtain ⟨z, hz⟩ := hop (x j + s)
    refine ⟨z, ?_⟩
    rw [Finset.cons_eq_insert, Finset.insert_eq]
    exact Acc.add (Finset.disjoint_singleton_left.2 hj) (Acc.one j) hs hz

theorem sum_exists {op : ℝ → ℝ → Prop} (hop : ∀ x, ∃ y, op x y) (xs : List ℝ) : ∃ s, Flt.Sum op xs s := by
  by_cases hx : xs = []
  · exact ⟨0, Or.inl ⟨hx, rfl⟩⟩
  · have : (Finset.univ : Finset (Fin xs.length)).Nonempty := ⟨⟨0, List.length_pos_iff.2 hx⟩, Finset.mem_univ _⟩
    obtain ⟨s, hs⟩ := acc_exists hop xs.get this
    exact ⟨s, Or.inr hs⟩

theorem csum_exists {op : ℝ → ℝ → Prop} (hop : ∀ x, ∃ y, op x y) (zs : List ℂ) : ∃ s, CSum op zs s := by
  obtain ⟨x, hx⟩ := sum_exists hop (zs.map Complex.re)
  obtain ⟨y, hy⟩ := sum_exists hop (zs.map Complex.im)
  exact ⟨⟨x, y⟩, hx, hy⟩

theorem forall₂_exists {α β : Type} {R : α → β → Prop} (l : List α) (h : ∀ x ∈ l, ∃ y, R x y) : ∃ l', List.Forall₂ R l l' := by
  induction l with
  | nil => exact ⟨[], .nil⟩
  | cons x l ih =>
    obtain ⟨y, hy⟩ := h x List.mem_cons_self
    obtain ⟨l', hl⟩ := ih fun z hz => h z (List.mem_cons_of_mem _ hz)
    exact ⟨y :: l', .cons hy hl⟩

theorem rad_exists (hT : Total a) (p : Pt) : ∃ r, Rad a p r := by
  choose s hs using fun i => hT.op (p.pos i ^ 2)
  obtain ⟨t, ht⟩ := hT.op (s 0 + s 1)
  obtain ⟨t', ht'⟩ := hT.op (t + s 2)
  obtain ⟨r, hr⟩ := hT.op (Real.sqrt t')
  exact ⟨r, s, hs, t, t', ht, ht', hr⟩

theorem angles_exists (hT : Total a) {b : ℕ} (hb : 1 ≤ b) (hop : ∀ x y, a.op x y → Nearest b x y) {p : Pt} (hz : Rep b (p.pos 2)) {r : ℝ} (hr : Rad a p r) :
    ∃ g, Angles a (p, r) g := by
  obtain ⟨c, hc⟩ := hT.op (p.pos 2 / r)
  obtain ⟨theta, ht⟩ := hT.lib (Real.arccos c)
  obtain ⟨f, hf⟩ := hT.lib (arctan2 (p.pos 1) (p.pos 0))
  obtain ⟨turn, htu⟩ := hT.op (2 * Real.pi)
  obtain ⟨f', hf'⟩ := hT.op (f + turn)
  have h1 : Theta a p r theta := ⟨c, hc, (C127_no_nan hb hop hz hr hc).2, ht⟩
  rcases le_or_gt 0 f with h | h
  · exact ⟨(f, theta), ⟨f, turn, hf, htu, Or.inl ⟨h, rfl⟩⟩, h1⟩
  · exact ⟨(f', theta), ⟨f, turn, hf, htu, Or.inr ⟨h, hf'⟩⟩, h1⟩

open Classical in
/-- **C127 (a result exactly when the exact call has one).**  In an arithmetic rounded to nearest, `qmoments` of an array of floating point numbers
returns (without NaN) if and only if the exact call returns. -/
theorem C127_returns (h0 : 0 ≤ u) (h1 : u ≤ 1 / 4) (ha : Accurate a u e) (hT : Total a) {b : ℕ} (hb : 1 ≤ b) (hop : ∀ x y, a.op x y → Nearest b x y)
    (L : ℕ) (A : PtArray) (hA : ∀ p ∈ A, Rep b (p.pos 2)) : (∃ q, Flt.qmoments a L A q) ↔ (Newt.qmoments L A).isSome := by
  have h1' : u < 1 := by linarith
  constructor
  · rintro ⟨q, h⟩
    obtain ⟨q0, h, -⟩ := C127_inner h0 h1 ha h
    rw [h]; rfl
  · intro h
    obtain ⟨rs, hrs⟩ := forall₂_exists A fun p _ => rad_exists hT p
    have hmem : ∀ x ∈ offRows A rs, x.1 ∈ A ∧ Rad a x.1 x.2 := by
      rintro ⟨p, r⟩ hx
      rw [offRows, List.mem_filter] at hx
      exact ⟨(List.of_mem_zip hx.1).1, List.forall₂_zip hrs hx.1⟩
    obtain ⟨ang, hang⟩ := forall₂_exists (R := Angles a) (offRows A rs) fun x hx => by
      obtain ⟨m1, m2⟩ := hmem x hx
      exact angles_exists hT hb hop (hA _ m1) m2
    obtain ⟨t, ht⟩ := hT.op (4 * Real.pi)
    obtain ⟨c, hc⟩ := hT.op (Real.sqrt t)
    obtain ⟨xs, hxs⟩ := forall₂_exists (R := fun p x => a.op (p.mass / c) x) A fun p _ => hT.op (p.mass / c)
    obtain ⟨q00, hq⟩ := sum_exists hT.op xs
    have hlen : ang.length = (ridsOf A).length := by
      rw [← hang.length_eq, ← filter_length, ← offRows_fst h0 h1' ha hrs, List.length_map]
    have hterm : ∀ (n : ℕ) (m : ℤ), ∃ s : ℂ, ∃ zs, List.Forall₂ (InnerTerm a m n) ((offRows A rs).zip ang) zs ∧ CSum a.op zs s := by
      intro n m
      obtain ⟨zs, hzs⟩ := forall₂_exists (R := InnerTerm a m n) ((offRows A rs).zip ang) fun x _ => by
        obtain ⟨Y, hY⟩ := hT.harm m n x.2.1 x.2.2
        obtain ⟨rl, hrl⟩ := hT.lib (x.1.2 ^ n)
        obtain ⟨w, hw⟩ := hT.op (x.1.1.mass * rl)
        obtain ⟨z1, hz1⟩ := hT.op (Y.re * w)
        obtain ⟨z2, hz2⟩ := hT.op (-Y.im * w)
        exact ⟨⟨z1, z2⟩, Y, rl, w, hY, hrl, hw, hz1, hz2⟩
      obtain ⟨s, hs⟩ := csum_exists hT.op zs
      exact ⟨s, zs, hzs, hs⟩
    choose f hf using hterm
    refine ⟨_, f, rs, ang, q00, hrs, hang, ⟨t, c, xs, ht, hc, hxs, hq⟩, ?_, rfl⟩
    by_cases hL : L = 0
    · exact Or.inl hL
    · refine Or.inr ⟨ang, ?_, fun n m _ _ _ _ => hf n m⟩
      rw [rids_eq h0 h1' ha hrs]
      have hO : OriginLast A := by
        rw [Newt.qmoments, if_neg hL, Option.isSome_map] at h
        exact (takeIds_some_iff A).1 h
      obtain ⟨B, O, rfl, hB, hO⟩ := hO
      rw [ridsOf_originLast B O hB hO] at hlen ⊢
      rw [List.length_range] at hlen
      have := mapM_get_range ang []
      rwa [List.append_nil, hlen] at this

/-- **C127 (outer moments always return).** -/
theorem C127_outer_returns (h0 : 0 ≤ u) (h1 : u ≤ 1 / 4) (ha : Accurate a u e) (hT : Total a) {b : ℕ} (hb : 1 ≤ b) (hop : ∀ x y, a.op x y → Nearest b x y)
    (L : ℕ) (A : PtArray) (hA : ∀ p ∈ A, Rep b (p.pos 2)) : ∃ Q, Flt.Qmomentsb a L A Q := by
  have h1' : u < 1 := by linarith
  obtain ⟨rs, hrs⟩ := forall₂_exists A fun p _ => rad_exists hT p
  by_cases hz : 0 ∈ rs
  · exact ⟨_, rs, hrs, Or.inl ⟨hz, rfl⟩⟩
  obtain ⟨ang, hang⟩ := forall₂_exists (R := Angles a) (A.zip rs) fun x hx => by
    exact angles_exists hT hb hop (hA _ (List.of_mem_zip hx).1) (List.forall₂_zip hrs hx)
  have hterm : ∀ (n : ℕ) (m : ℤ), ∃ s : ℂ, ∃ zs, List.Forall₂ (OuterTerm a m n) ((A.zip rs).zip ang) zs ∧ CSum a.op zs s := by
    intro n m
    obtain ⟨zs, hzs⟩ := forall₂_exists (R := OuterTerm a m n) ((A.zip rs).zip ang) fun x hx => by
      obtain ⟨Y, hY⟩ := hT.harm m n x.2.1 x.2.2
      obtain ⟨b1, hb1⟩ := hT.op (x.1.1.mass * Y.re)
      obtain ⟨b2, hb2⟩ := hT.op (x.1.1.mass * Y.im)
      obtain ⟨rl, hrl⟩ := hT.lib (x.1.2 ^ (n + 1))
      obtain ⟨s, hs⟩ := hT.op (1 / rl)
      obtain ⟨z1, hz1⟩ := hT.op (b1 * s)
      obtain ⟨z2, hz2⟩ := hT.op (b2 * s)
      have hr0 : x.1.2 ≠ 0 := fun e => hz (e ▸ (List.of_mem_zip (List.of_mem_zip hx).1).2)
      have hrl0 : rl ≠ 0 := by
        intro e
        have n := near_of_rd h0 h1' (ha.lib _ _ hrl)
        exact pow_ne_zero _ hr0 ((near_zero_iff h1' n).1 e)
      exact ⟨⟨z1, z2⟩, Y, ⟨b1, b2⟩, rl, s, hY, hb1, hb2, hrl, hrl0, hs, hz1, hz2⟩
    obtain ⟨s, hs⟩ := csum_exists hT.op zs
    exact ⟨s, zs, hzs, hs⟩
  choose f hf using hterm
  exact ⟨_, rs, hrs, Or.inr ⟨hz, f, ang, hang, fun n m _ _ _ => hf n m, rfl⟩⟩

/-! ## Half the digits are lost near the axis -/

theorem rep_between {x : ℝ} (hx : Rep 53 x) (h1 : 1 ≤ x) (h2 : x ≤ 1 + (2 : ℝ)⁻¹ ^ 53) : x = 1 := by
  obtain ⟨k, f, hk1, hk2, rfl⟩ := rep_normal (by norm_num) hx (by linarith)
  have k1 : ((2 : ℝ) ^ 52) ≤ k := by exact_mod_cast hk1
  have k2 : (k : ℝ) < 2 ^ 53 := by exact_mod_cast hk2
  have hf : f = -52 := by
    rcases lt_trichotomy f (-52) with h | h | h
    · exfalso
      have h3 : (2 : ℝ) ^ f ≤ 2 ^ (-53 : ℤ) := zpow_le_zpow_right₀ (by norm_num) (by omega)
      have h4 : (k : ℝ) * 2 ^ f < 2 ^ 53 * 2 ^ (-53 : ℤ) := mul_lt_mul k2 h3 (by positivity) (by positivity)
      have h5 : (2 : ℝ) ^ 53 * 2 ^ (-53 : ℤ) = 1 := by norm_num
      linarith
    · exact h
    · exfalso
      have h3 : (2 : ℝ) ^ (-51 : ℤ) ≤ 2 ^ f := zpow_le_zpow_right₀ (by norm_num) (by omega)
      have h4 : (2 : ℝ) ^ 52 * 2 ^ (-51 : ℤ) ≤ k * 2 ^ f := mul_le_mul k1 h3 (by positivity) (by positivity)
      have h5 : (2 : ℝ) ^ 52 * 2 ^ (-51 : ℤ) = 2 := by norm_num
      have h6 : (2 : ℝ)⁻¹ ^ 53 < 1 := by norm_num
      linarith
  subst hf
  have e1 : (2 : ℝ) ^ (-52 : ℤ) = 1 / 2 ^ 52 := by norm_num
  rw [e1] at h1 h2 ⊢
  have h3 : k < 2 ^ 52 + 1 := by
    have : (k : ℝ) < 2 ^ 52 + 1 := by
      rw [mul_one_div, div_le_iff₀ (by positivity)] at h2
      have e2 : (1 + (2 : ℝ)⁻¹ ^ 53) * 2 ^ 52 = 2 ^ 52 + 1 / 2 := by norm_num
      rw [e2] at h2
      linarith
    exact_mod_cast this
  have : k = 2 ^ 52 := by omega
  rw [this]
  norm_num

theorem accurate_zero (ha : Accurate a u e) : (∀ y, a.op 0 y → y = 0) ∧ ∀ y, a.lib 0 y → y = 0 := by
  constructor
  · intro y h
    have := ha.op _ _ h
    simpa using this
  · intro y h
    have := ha.lib _ _ h
    simpa using this

/-- The point of the example: at height one, `2^-27` away from the axis. -/
noncomputable def nearAxis : Pt := ⟨1, ![1 / 2 ^ 27, 0, 1]⟩

theorem nearAxis_rad (hop : ∀ x y, a.op x y → Nearest 53 x y) {r : ℝ} (hr : Rad a nearAxis r) : r = 1 := by
  obtain ⟨s, hs, t, t', ht, ht', hr⟩ := hr
  have hpow : Rep 53 ((1 : ℝ) / 2 ^ 54) := ⟨1, -54, by norm_num, by norm_num⟩
  have s0 : s 0 = 1 / 2 ^ 54 := by
    have := hop _ _ (hs 0)
    have e1 : nearAxis.pos 0 ^ 2 = 1 / 2 ^ 54 := by simp only [nearAxis, Matrix.cons_val]; norm_num
    rw [e1] at this
    exact nearest_rep this hpow
  have s1 : s 1 = 0 := by
    have := hop _ _ (hs 1)
    have e1 : nearAxis.pos 1 ^ 2 = 0 := by simp [nearAxis]
    rw [e1] at this
    exact nearest_rep this (rep_zero _)
  have s2 : s 2 = 1 := by
    have := hop _ _ (hs 2)
    have e1 : nearAxis.pos 2 ^ 2 = 1 := by simp [nearAxis]
    rw [e1] at this
    exact nearest_rep this (rep_one (by norm_num))
  rw [s0, s1, add_zero] at ht
  rw [nearest_rep (hop _ _ ht) hpow, s2] at ht'
  have n := hop _ _ ht'
  have ht1 : t' = 1 := by
    refine rep_between n.1 (nearest_ge n (rep_one (by norm_num)) (by norm_num)) ?_
    have h1 := (abs_le.1 (n.2 1 (rep_one (by norm_num)))).2
    have e1 : |(1 : ℝ) - (1 / 2 ^ 54 + 1)| = 1 / 2 ^ 54 := by norm_num
    rw [e1] at h1
    have e2 : (2 : ℝ)⁻¹ ^ 53 = 1 / 2 ^ 54 + 1 / 2 ^ 54 := by norm_num
    rw [e2]
    linarith
  rw [ht1, Real.sqrt_one] at hr
  exact nearest_rep (hop _ _ hr) (rep_one (by norm_num))

theorem nearAxis_angles (ha : Accurate a u e) (hop : ∀ x y, a.op x y → Nearest 53 x y) {g : ℝ × ℝ} (h : Angles a (nearAxis, 1) g) : g = (0, 0) := by
  obtain ⟨⟨f, turn, hf, -, h⟩, c, hc, -, ht⟩ := h
  have hz := accurate_zero ha
  have e1 : nearAxis.pos 2 / 1 = 1 := by simp [nearAxis]
  rw [e1] at hc
  have c1 : c = 1 := nearest_rep (hop _ _ hc) (rep_one (by norm_num))
  rw [c1, Real.arccos_one] at ht
  have e2 : arctan2 (nearAxis.pos 1) (nearAxis.pos 0) = 0 := by
    rw [arctan2]
    have : (⟨nearAxis.pos 0, nearAxis.pos 1⟩ : ℂ) = (((1 : ℝ) / 2 ^ 27 : ℝ) : ℂ) := by
      apply Complex.ext
      · rw [Complex.ofReal_re]; rfl
      · rw [Complex.ofReal_im]; rfl
    rw [this]
    exact Complex.arg_ofReal_of_nonneg (by positivity)
  rw [e2] at hf
  have f0 := hz.2 _ hf
  rcases h with ⟨-, h⟩ | ⟨h, -⟩
  · exact Prod.ext (h.trans f0) (hz.2 _ ht)
  · rw [f0] at h; exact absurd h (lt_irrefl _)

/-- **C127 (loss of half the digits).**  A unit mass at height one and `2^-27` away from the `z` axis has `|q11| = sqrt(3/8pi) 2^-27`, but in any
arithmetic of 53 binary digits rounded to nearest the computed value is zero up to the error of `sph_harm`. -/
theorem C127_loss (h0 : 0 ≤ u) (h1 : u ≤ 1 / 4) (ha : Accurate a u e) (hop : ∀ x y, a.op x y → Nearest 53 x y) {q : Mom 1} (h : Flt.qmoments a 1 [nearAxis] q) :
    ∃ q0, Newt.qmoments 1 [nearAxis] = some q0 ∧ ‖q0.get 1 1‖ = Real.sqrt (3 / (8 * Real.pi)) / 2 ^ 27 ∧ ‖q.get 1 1‖ ≤ 4 * e 1 := by
  have h1' : u < 1 := by linarith
  obtain ⟨q0, hq0, -⟩ := C127_inner h0 h1 ha h
  refine ⟨q0, hq0, ?_, ?_⟩
  · have hO : OriginLast [nearAxis] := ⟨[nearAxis], [], rfl, by
      intro p hp
      rw [List.mem_singleton] at hp
      subst hp
      intro hc
      have := congrFun hc 2
      simp [nearAxis] at this, by simp⟩
    rw [qmoments_closed 1 _ (Or.inr hO)] at hq0
    obtain rfl := Option.some.inj hq0
    rw [Mom.get_ofFn _ le_rfl (by simp), innerMoment_cons, innerMoment_nil, add_zero, (solidS_low _).2.1]
    have e1 : ((nearAxis.pos 0 : ℝ) : ℂ) - Complex.I * ((nearAxis.pos 1 : ℝ) : ℂ) = (((1 : ℝ) / 2 ^ 27 : ℝ) : ℂ) := by
      simp only [nearAxis, Matrix.cons_val]
      push_cast; ring
    have e2 : ((nearAxis.mass : ℝ) : ℂ) = 1 := by simp [nearAxis]
    rw [e1, e2, one_mul, norm_mul, norm_neg, Complex.norm_real, Complex.norm_real, Real.norm_eq_abs, Real.norm_eq_abs,
      abs_of_nonneg (Real.sqrt_nonneg _), abs_of_pos (by positivity), mul_one_div]
  · obtain ⟨f, rs, ang, q00, hrs, hang, -, hcase, rfl⟩ := h
    rcases hcase with h | ⟨ang', htake, hterms⟩
    · omega
    obtain ⟨zs, hz, hs⟩ := hterms 1 1 le_rfl le_rfl (by norm_num) (by norm_num)
    cases hrs with
    | @cons _ r _ rs hr hrs =>
    cases hrs
    have r1 := nearAxis_rad hop hr
    subst r1
    have eo : offRows [nearAxis] [1] = [(nearAxis, 1)] := by simp [offRows]
    rw [eo] at hang hz
    cases hang with
    | @cons _ g _ ang hg hang =>
    cases hang
    have er : rids [1] = [0] := by simp [rids, List.range_succ]
    rw [er] at htake
    have : ang' = [g] := by
      have : takeIds [g] [0] = some [g] := rfl
      rw [this] at htake
      exact (Option.some.inj htake).symm
    subst this
    cases hz with
    | @cons _ z _ zs hz hzs =>
    cases hzs
    rw [nearAxis_angles ha hop hg] at hz
    obtain ⟨Y, rl, w, hY, hrl, hw, hre, him⟩ := hz
    have hY0 : ‖Y‖ ≤ e 1 := by
      have := ha.harm _ _ _ _ _ hY
      have e0 : sphHarm 1 1 0 0 = 0 := by simp [sphHarm, lpmv]
      rwa [e0, sub_zero] at this
    have hget : (Mom.ofFn 1 fun n m => if n = 0 then (if m = 0 then (q00 : ℂ) else 0) else if 0 ≤ m ∧ m ≤ (n : ℤ) then f n m else 0).fillNeg.get 1 1 = f 1 1 := by
      rw [Mom.get_fillNeg _ le_rfl (by simp), Mom.get_ofFn _ le_rfl (by simp), Mom.get_ofFn _ le_rfl (by simp)]
      simp
    rw [hget]
    have n1 : Near u 1 (1 ^ 1) rl := near_of_rd h0 h1' (ha.lib _ _ hrl)
    have n2 : Near u 2 (nearAxis.mass * 1 ^ 1) w :=
      near_rd h0 h1' (near_mono h0 h1' (by omega) (near_mul (j := 0) h1' (near_refl h0 h1' 0 nearAxis.mass) n1)) (ha.op _ _ hw)
    rw [show nearAxis.mass * 1 ^ 1 = 1 by simp [nearAxis]] at n2
    have n3 : ∀ t s : ℝ, a.op (t * w) s → Near u 3 t s := fun t s hs => by
      have := near_rd h0 h1' (near_mul (j := 0) h1' (near_refl h0 h1' 0 t) n2) (ha.op _ _ hs)
      rwa [mul_one] at this
    obtain ⟨θ, er1, r1, r2⟩ := n3 _ _ hre
    obtain ⟨θ', ei1, s1, s2⟩ := n3 _ _ him
    have hE := relErr_nonneg h0 h1' 3
    have t1 : |θ - 1| ≤ relErr u 3 := by simpa using near_err h1' (⟨θ, (mul_one _).symm, r1, r2⟩ : Near u 3 1 θ)
    have t2 : |θ' - 1| ≤ relErr u 3 := by simpa using near_err h1' (⟨θ', (mul_one _).symm, s1, s2⟩ : Near u 3 1 θ')
    have t3 : |θ| ≤ 1 + relErr u 3 := by rw [abs_le] at t1 ⊢; constructor <;> linarith
    have t4 : |-θ'| ≤ 1 + relErr u 3 := by rw [abs_neg, abs_le]; rw [abs_le] at t2; constructor <;> linarith
    have hz1 : ‖z‖ ≤ (1 + relErr u 3) * ‖Y‖ := weighted_le θ (-θ') _ t3 t4 Y z er1 (by rw [ei1]; ring)
    have hs1 := csum_err h0 h1' ha hs
    simp only [List.sum_cons, List.sum_nil, add_zero, List.length_cons, List.length_nil, zero_add, List.map_cons, List.map_nil] at hs1
    have hE1 := relErr_nonneg h0 h1' 1
    have h5 : ‖f 1 1‖ ≤ (1 + relErr u 1) * ‖z‖ := by
      calc ‖f 1 1‖ = ‖(f 1 1 - z) + z‖ := by congr 1; ring
        _ ≤ ‖f 1 1 - z‖ + ‖z‖ := norm_add_le _ _
        _ ≤ relErr u 1 * ‖z‖ + ‖z‖ := by gcongr
        _ = _ := by ring
    have h6 : 1 + relErr u 4 ≤ 4 := by
      rw [relErr]
      have : ((1 - u) ^ 4)⁻¹ ≤ ((3 / 4 : ℝ) ^ 4)⁻¹ := inv_anti₀ (by norm_num) (by gcongr; linarith)
      norm_num at this ⊢
      linarith
    calc ‖f 1 1‖ ≤ (1 + relErr u 1) * ((1 + relErr u 3) * ‖Y‖) := h5.trans (by gcongr)
      _ = (1 + relErr u 4) * ‖Y‖ := by rw [← mul_assoc, relErr_add h1']
      _ ≤ 4 * e 1 := mul_le_mul h6 hY0 (norm_nonneg _) (by norm_num)

/-! ## Sizes in double precision -/

theorem size_step {u d D y E : ℝ} {l N : ℕ} (h0 : 0 ≤ u) (hd : 0 ≤ d) (hl : l ≤ 20) (hy : 0 ≤ y) (hE : 0 ≤ E) (hK : relErr u (3 * l + 3 + N) ≤ 3e-11) (hK0 : 0 ≤ relErr u (3 * l + 3 + N))
    (hD : 64 * (d + 8 * u) ≤ D) :
    relErr u (3 * l + 3 + N) * (y + (E + y * (l * (Real.pi * (d + 8 * u))))) + (E + y * (l * (Real.pi * (d + 8 * u)))) ≤ (1.0001 * D + 3e-11) * y + 2 * E := by
  have hpi : Real.pi ≤ 3.2 := Real.pi_lt_d2.le.trans (by norm_num)
  have hl' : (l : ℝ) ≤ 20 := by exact_mod_cast hl
  have hD1 : (l : ℝ) * (Real.pi * (d + 8 * u)) ≤ D := by
    have h1 : Real.pi * (d + 8 * u) ≤ 3.2 * (d + 8 * u) := by gcongr
    calc (l : ℝ) * (Real.pi * (d + 8 * u)) ≤ 20 * (3.2 * (d + 8 * u)) := by
          have := Real.pi_pos
          gcongr
      _ = 64 * (d + 8 * u) := by ring
      _ ≤ D := hD
  have hD0 : 0 ≤ D := le_trans (by positivity) hD
  set K := relErr u (3 * l + 3 + N)
  have h2 : y * (l * (Real.pi * (d + 8 * u))) ≤ y * D := by gcongr
  have h3 : K * (y + (E + y * (l * (Real.pi * (d + 8 * u))))) ≤ 3e-11 * (y + (E + y * D)) := by
    refine mul_le_mul hK (by linarith) ?_ (by norm_num)
    have := Real.pi_pos
    positivity
  nlinarith [mul_nonneg hy hD0]

theorem double_relErr {l N : ℕ} (hl : l ≤ 20) (hN : N ≤ 100000) : relErr ((2 : ℝ)⁻¹ ^ 53) (3 * l + 3 + N) ≤ 3e-11 := by
  have hk : ((3 * l + 3 + N : ℕ) : ℝ) ≤ 100063 := by exact_mod_cast (by omega : 3 * l + 3 + N ≤ 100063)
  have hu : (0 : ℝ) ≤ (2 : ℝ)⁻¹ ^ 53 := by positivity
  refine (C112_size hu _ ?_).trans ?_
  · calc ((3 * l + 3 + N : ℕ) : ℝ) * (2 : ℝ)⁻¹ ^ 53 ≤ 100063 * (2 : ℝ)⁻¹ ^ 53 := by gcongr
      _ ≤ 1 / 2 := by norm_num
  · calc 2 * ((3 * l + 3 + N : ℕ) : ℝ) * (2 : ℝ)⁻¹ ^ 53 ≤ 2 * 100063 * (2 : ℝ)⁻¹ ^ 53 := by gcongr
      _ ≤ 3e-11 := by norm_num

/-- **C127 (double precision).**  Up to degree 20 and for up to 100000 rows, with every operation accurate to `2^-53`: relative to the sum of
`|mass| r^l` times the largest value of the harmonic, the error is at most `1e-10` if no row is within 6 degrees of the `z` axis, and at most
`2e-6` in any case, plus twice the error of `sph_harm`. -/
theorem C127_double (ha : Accurate a ((2 : ℝ)⁻¹ ^ 53) e) {L : ℕ} (hL : L ≤ 20) {A : PtArray} (hN : A.length ≤ 100000) {q : Mom L} (h : Flt.qmoments a L A q) :
    ∃ q0, Newt.qmoments L A = some q0 ∧ ∀ l m, l ≤ L → m.natAbs ≤ L →
      ‖q.get l m - q0.get l m‖ ≤ gross (fun p => originDist p ^ l) A * (2e-6 * harmMax l + 2 * e l) ∧
      ((∀ p ∈ A, 1 / 10 * originDist p ≤ cylRad p) → ‖q.get l m - q0.get l m‖ ≤ gross (fun p => originDist p ^ l) A * (1e-10 * harmMax l + 2 * e l)) := by
  have hu : (0 : ℝ) ≤ (2 : ℝ)⁻¹ ^ 53 := by positivity
  have hu1 : (2 : ℝ)⁻¹ ^ 53 ≤ 1 / 4 := by norm_num
  have hu2 : (2 : ℝ)⁻¹ ^ 53 < 1 := by norm_num
  obtain ⟨q0, hq, hb⟩ := C127_inner hu hu1 ha h
  have h4 : relErr ((2 : ℝ)⁻¹ ^ 53) 4 ≤ 8 * (2 : ℝ)⁻¹ ^ 53 := by
    have := C112_size hu 4 (by norm_num)
    push_cast at this
    linarith
  have h40 := relErr_nonneg hu hu2 4
  refine ⟨q0, hq, fun l m hl hm => ?_⟩
  have hg0 : 0 ≤ gross (fun p => originDist p ^ l) A := gross_nonneg _ _ fun p _ => pow_nonneg (Real.sqrt_nonneg _) l
  have hK := double_relErr (l := l) (N := A.length) (by omega) hN
  have hK0 := relErr_nonneg hu hu2 (3 * l + 3 + A.length)
  have hy := harmMax_nonneg l
  have hE := ha.nonneg l
  constructor
  · refine (hb l m hl hm).trans (mul_le_mul_of_nonneg_left ?_ hg0)
    have hd : Real.sqrt (relErr ((2 : ℝ)⁻¹ ^ 53) 4 / 2) ≤ 2.2e-8 := by
      rw [Real.sqrt_le_left (by norm_num)]
      refine le_trans (div_le_div_of_nonneg_right h4 (by norm_num)) ?_
      norm_num
    refine (size_step (D := 1.5e-6) hu (Real.sqrt_nonneg _) (by omega) hy hE hK hK0 ?_).trans ?_
    · have : 64 * (2.2e-8 + 8 * (2 : ℝ)⁻¹ ^ 53) ≤ 1.5e-6 := by norm_num
      linarith
    · have : (1.0001 * 1.5e-6 + 3e-11 : ℝ) ≤ 2e-6 := by norm_num
      nlinarith
  · intro hA
    obtain ⟨q1, hq1, hb1⟩ := C127_inner_off_axis hu hu1 ha h (by norm_num : (0 : ℝ) < 1 / 10) hA
    rw [hq] at hq1
    obtain rfl := Option.some.inj hq1
    refine (hb1 l m hl hm).trans (mul_le_mul_of_nonneg_left ?_ hg0)
    refine (size_step (D := 1e-12) hu (by positivity) (by omega) hy hE hK hK0 ?_).trans ?_
    · have e1 : relErr ((2 : ℝ)⁻¹ ^ 53) 4 / (1 / 10) = 10 * relErr ((2 : ℝ)⁻¹ ^ 53) 4 := by ring
      rw [e1]
      have : 64 * (10 * (8 * (2 : ℝ)⁻¹ ^ 53) + 8 * (2 : ℝ)⁻¹ ^ 53) ≤ 1e-12 := by norm_num
      linarith
    · have : (1.0001 * 1e-12 + 3e-11 : ℝ) ≤ 1e-10 := by norm_num
      nlinarith

/-! ## A concrete arithmetic -/

/-- Correctly rounded operations and functions in double precision. -/
noncomputable def ieee53 : Arith where
  op x y := y = binRound 53 x
  lib x y := y = binRound 53 x
  harm m n phi theta Y := Y = sphHarm m n phi theta

theorem ieee53_accurate : Accurate ieee53 ((2 : ℝ)⁻¹ ^ 53) fun _ => 0 where
  op x y h := by rw [show y = binRound 53 x from h]; exact C112_binary 53 x
  lib x y h := by rw [show y = binRound 53 x from h]; exact C112_binary 53 x
  harm m n phi theta Y h := by rw [show Y = sphHarm m n phi theta from h]; simp
  nonneg _ := le_rfl

theorem ieee53_total : Total ieee53 := ⟨fun _ => ⟨_, rfl⟩, fun _ => ⟨_, rfl⟩, fun _ _ _ _ => ⟨_, rfl⟩⟩

theorem ieee53_nearest (x y : ℝ) (h : ieee53.op x y) : Nearest 53 x y := by
  rw [show y = binRound 53 x from h]
  exact nearest_binRound (by norm_num) x

/-- **C127 (the accuracy of rounding to nearest).**  Any arithmetic rounded to nearest with `b` binary digits has `u = 2^-b`, and there is one. -/
theorem C127_nearest {b : ℕ} (hb : 1 ≤ b) : (∀ x y, Nearest b x y → |y - x| ≤ (2 : ℝ)⁻¹ ^ b * |x|) ∧ ∀ x, ∃ y, Nearest b x y :=
  ⟨fun _ _ h => nearest_rd hb h, fun x => ⟨_, nearest_binRound hb x⟩⟩

example : ∃ q, Flt.qmoments ieee53 1 [nearAxis] q := by
  refine (C127_returns (u := (2 : ℝ)⁻¹ ^ 53) (by positivity) (by norm_num) ieee53_accurate ieee53_total (by norm_num) ieee53_nearest 1 [nearAxis] ?_).2 ?_
  · intro p hp
    rw [List.mem_singleton] at hp
    subst hp
    exact rep_one (by norm_num)
  · have hO : OriginLast [nearAxis] := ⟨[nearAxis], [], rfl, by
      intro p hp
      rw [List.mem_singleton] at hp
      subst hp
      intro hc
      have := congrFun hc 2
      simp [nearAxis] at this, by simp⟩
    rw [qmoments_closed 1 _ (Or.inr hO)]
    rfl

-- the exact value is not small compared with the computed one
example {q : Mom 1} (h : Flt.qmoments ieee53 1 [nearAxis] q) : q.get 1 1 = 0 ∧ ∃ q0, Newt.qmoments 1 [nearAxis] = some q0 ∧ q0.get 1 1 ≠ 0 := by
  obtain ⟨q0, h1, h2, h3⟩ := C127_loss (u := (2 : ℝ)⁻¹ ^ 53) (by positivity) (by norm_num) ieee53_accurate ieee53_nearest h
  refine ⟨by simpa using h3, q0, h1, fun hc => ?_⟩
  rw [hc, norm_zero] at h2
  have : 0 < Real.sqrt (3 / (8 * Real.pi)) / 2 ^ 27 := by have := Real.pi_pos; positivity
  linarith

-- rows away from the axis, with a coordinate that is not exact in binary operations
example : ∃ Q, Flt.Qmomentsb ieee53 4 [⟨2, ![3, 4, 1]⟩, ⟨5, ![1, 0, 1]⟩] Q ∧ ∀ p ∈ ([⟨2, ![3, 4, 1]⟩, ⟨5, ![1, 0, 1]⟩] : PtArray), 1 / 2 * originDist p ≤ cylRad p := by
  obtain ⟨Q, h⟩ := C127_outer_returns (u := (2 : ℝ)⁻¹ ^ 53) (by positivity) (by norm_num) ieee53_accurate ieee53_total (b := 53) (by norm_num) ieee53_nearest 4
    [⟨2, ![3, 4, 1]⟩, ⟨5, ![1, 0, 1]⟩] (by
      intro p hp
      simp only [List.mem_cons, List.not_mem_nil, or_false] at hp
      rcases hp with rfl | rfl <;> exact rep_one (by norm_num))
  refine ⟨Q, h, fun p hp => ?_⟩
  simp only [List.mem_cons, List.not_mem_nil, or_false] at hp
  have k : ∀ x y : ℝ, 0 ≤ x → x ≤ 4 * y → 1 / 2 * Real.sqrt x ≤ Real.sqrt y := by
    intro x y hx hxy
    have h4 : Real.sqrt x ≤ Real.sqrt (2 ^ 2 * y) := Real.sqrt_le_sqrt (by linarith)
    rw [Real.sqrt_mul (by norm_num), Real.sqrt_sq (by norm_num)] at h4
    linarith
  rcases hp with rfl | rfl
  · exact k _ _ (by positivity) (by simp only [Matrix.cons_val]; norm_num)
  · exact k _ _ (by positivity) (by simp only [Matrix.cons_val]; norm_num)

end Newt
