import Verif.Proofs.TransBound
import Verif.Props.ForceRounding
import Verif.Props.Translations

/-!
# C130: the rounding of Clebsch-Gordan coefficients and of translated moments
-/

namespace Newt

open Spec Flt

variable {a : Arith} {u : ℝ} {e : ℕ → ℝ}

/-! ## Clebsch-Gordan coefficients -/

/-- **C130 (any coefficient).**  The computed coefficient differs from the exact one by at most the errors of the logarithms of the factorials and of
`9` operations and one more for each term, relative to Racah's formula without signs. -/
theorem C130_cg (h0 : 0 ≤ u) (h1 : u < 1) (ha : Accurate a u e) {j1 j2 m1 m2 J M : ℤ} {c : ℝ} (h : Flt.cgCoeff a j1 j2 m1 m2 J M c) :
    (CGValid j1 j2 m1 m2 J M → |c - racah j1 j2 m1 m2 J M| ≤
      (Real.exp (relErr u 4 * (6 * Real.log (fct (j1 + j2 + J + 1)))) * (1 + relErr u (9 + (j1 + j2 - J + 1).toNat)) - 1) * racahAbs j1 j2 m1 m2 J M) ∧
    (¬ CGValid j1 j2 m1 m2 J M → c = 0) := by
  refine ⟨fun hv => ?_, fun hv => ?_⟩
  · rw [← cgCoeff_valid hv]
    exact cg_within h0 h1 ha h
  · rcases cgCoeff_cases ha h with ⟨-, h2, -⟩ | ⟨h2, -⟩
    · exact h2
    · exact absurd h2 hv

/-- **C130 (the coefficients that translations use).**  The coefficients of the largest and of the smallest `J` are sums of one term and are computed with
a small relative error; in particular with the right sign, and zero exactly when they vanish. -/
theorem C130_cg_relative (h0 : 0 ≤ u) (h1 : u < 1) (ha : Accurate a u e) {j1 j2 m1 m2 J M : ℤ} (hJ : J = j1 + j2 ∨ J = j2 - j1) {c : ℝ}
    (h : Flt.cgCoeff a j1 j2 m1 m2 J M c) :
    |c - Newt.cgCoeff j1 j2 m1 m2 J M| ≤ (Real.exp (relErr u 4 * (6 * Real.log (fct (j1 + j2 + J + 1)))) * (1 + relErr u 10) - 1) * |Newt.cgCoeff j1 j2 m1 m2 J M| :=
  (cg_stretched_within h0 h1 ha hJ le_rfl h).2

/-! ## Translations of given moments -/

theorem transGrow_one_le (h0 : 0 ≤ u) (h1 : u < 1) {dd eps : ℝ} (hd : 0 ≤ dd) (he : 0 ≤ eps) (L N : ℕ) : 1 ≤ transGrow u dd eps L N := by
  have hpi := Real.pi_pos
  have k1 : 1 ≤ Real.exp (relErr u 4 * (9 * Real.log ((2 * N + 1).factorial))) := one_le_exp' h0 h1 (by have := log_fact_nonneg (2 * N + 1); linarith)
  have k2 : 1 ≤ 1 + relErr u (25 + 6 * L + (L + 1) ^ 2) := by have := relErr_nonneg h0 h1 (25 + 6 * L + (L + 1) ^ 2); linarith
  have k3 : 1 ≤ 1 + (eps + N * (Real.pi * (dd + 8 * u))) := by
    have : 0 ≤ (N : ℝ) * (Real.pi * (dd + 8 * u)) := by positivity
    linarith
  exact one_le_mul_of_one_le_of_one_le (one_le_mul_of_one_le_of_one_le k1 k2) k3

theorem eps_nonneg (ha : Accurate a u e) {eps : ℝ} {L : ℕ} (heps : ∀ l, l ≤ L → e l ≤ eps * harmMax l) : 0 ≤ eps := by
  have he : 0 ≤ eps * harmMax 0 := (ha.nonneg 0).trans (heps 0 (by omega))
  have hpi := Real.pi_pos
  have hy : 0 < harmMax 0 := by rw [harmMax]; positivity
  by_contra hc
  push Not at hc
  nlinarith

theorem disp_zero (h0 : 0 ≤ u) (h1 : u < 1) (ha : Accurate a u e) {L : ℕ} {q q' : Mom L} (h : Flt.translate_qlm a q 0 q') : q' = q := by
  rcases h with ⟨-, h⟩ | ⟨r, phi, theta, Y, f, hr, hdisp, -⟩
  · exact h
  · exact absurd ((rad_zero_iff h0 h1 ha hdisp.1).2 rfl) hr

theorem disp_zero' (h0 : 0 ≤ u) (h1 : u < 1) (ha : Accurate a u e) {L : ℕ} {q q' : Mom L} (h : Flt.translate_Qlmb a q 0 q') : q' = q := by
  rcases h with ⟨-, h⟩ | ⟨r, phi, theta, Y, f, hr, hdisp, -⟩
  · exact h
  · exact absurd ((rad_zero_iff h0 h1 ha hdisp.1).2 rfl) hr

/-- **C130 (inner moments).**  `translate_qlm` returns the exact translation of the given moments up to `transGrow - 1` times the translation without regard to
sign; `dd` is the accuracy of the polar angle of the displacement, `eps` the relative accuracy of `sph_harm`. -/
theorem C130_inner (h0 : 0 ≤ u) (h1 : u < 1) (ha : Accurate a u e) {L : ℕ} {q q' : Mom L} {d : V3} {dd eps : ℝ} (hdd : PolarAccuracy u dd [⟨1, d⟩])
    (heps : ∀ l, l ≤ L → e l ≤ eps * harmMax l) (h : Flt.translate_qlm a q d q') {l : ℕ} {m : ℤ} (hl : l ≤ L) (hm : m.natAbs ≤ l) :
    ‖q'.get l m - (Newt.translate_qlm q d).get l m‖ ≤ (transGrow u dd eps L L - 1) * grossInner (fun l m => ‖q.get l m‖) (modulus d) l m.natAbs := by
  by_cases hd : d = 0
  · subst hd
    rw [disp_zero h0 h1 ha h, C19_zero, sub_self, norm_zero]
    have := transGrow_one_le h0 h1 hdd.1 (eps_nonneg ha heps) L L
    refine mul_nonneg (by linarith) (Finset.sum_nonneg fun k _ => Finset.sum_nonneg fun n _ => ?_)
    have := harmMax_nonneg (l - k)
    have := innerFac_nonneg l k (modulus_nonneg 0)
    positivity
  · have := (inner_tr_within h0 h1 ha le_rfl (fun l m _ _ => Within.refl (x := q.get l m) (w := ‖q.get l m‖) le_rfl le_rfl) hd hdd heps h hl hm).2
    rwa [mul_one] at this

/-- **C130 (outer moments).** -/
theorem C130_outer (h0 : 0 ≤ u) (h1 : u < 1) (ha : Accurate a u e) {L : ℕ} {Q Q' : Mom L} {d : V3} {dd eps : ℝ} (hdd : PolarAccuracy u dd [⟨1, d⟩])
    (heps : ∀ l, l ≤ L → e l ≤ eps * harmMax l) (h : Flt.translate_Qlmb a Q d Q') {l : ℕ} {m : ℤ} (hl : l ≤ L) (hm : m.natAbs ≤ l) :
    ‖Q'.get l m - (Newt.translate_Qlmb Q d).get l m‖ ≤ (transGrow u dd eps L L - 1) * grossOuter L (fun l m => ‖Q.get l m‖) (modulus d) l m.natAbs := by
  by_cases hd : d = 0
  · subst hd
    rw [disp_zero' h0 h1 ha h, C20_zero, sub_self, norm_zero]
    have := transGrow_one_le h0 h1 hdd.1 (eps_nonneg ha heps) L L
    refine mul_nonneg (by linarith) (Finset.sum_nonneg fun k _ => Finset.sum_nonneg fun n _ => ?_)
    have := harmMax_nonneg (k - l)
    have := outerFac_nonneg l k (modulus_nonneg 0)
    positivity
  · have := (outer_tr_within h0 h1 ha le_rfl (fun l m _ _ => Within.refl (x := Q.get l m) (w := ‖Q.get l m‖) le_rfl le_rfl) hd hdd heps h hl hm).2
    rwa [mul_one] at this

theorem q2Q_ne (h0 : 0 ≤ u) (h1 : u < 1) (ha : Accurate a u e) {L : ℕ} {q Q' : Mom L} {d : V3} (h : Flt.translate_q2Q a q d Q') : d ≠ 0 := by
  obtain ⟨r, phi, theta, Y, f, hr, hdisp, -⟩ := h
  exact fun hd => hr ((rad_zero_iff h0 h1 ha hdisp.1).2 hd)

/-- **C130 (outer moments from inner ones).** -/
theorem C130_cross (h0 : 0 ≤ u) (h1 : u < 1) (ha : Accurate a u e) {L : ℕ} {q Q' : Mom L} {d : V3} {dd eps : ℝ} (hdd : PolarAccuracy u dd [⟨1, d⟩])
    (heps : ∀ l, l ≤ 2 * L → e l ≤ eps * harmMax l) (h : Flt.translate_q2Q a q d Q') :
    ∃ Q, Newt.translate_q2Q q d = some Q ∧ ∀ (l : ℕ) (m : ℤ), l ≤ L → m.natAbs ≤ l →
      ‖Q'.get l m - Q.get l m‖ ≤ (transGrow u dd eps L (2 * L) - 1) * grossCross L (fun l m => ‖q.get l m‖) (modulus d) l m := by
  have hd := q2Q_ne h0 h1 ha h
  have e0 := translate_q2Q_fill q hd
  refine ⟨_, e0, fun l m hl hm => ?_⟩
  have := (cross_tr_within h0 h1 ha le_rfl (fun l m _ _ => Within.refl (x := q.get l m) (w := ‖q.get l m‖) le_rfl le_rfl) hd hdd heps e0 h hl hm).2
  rwa [mul_one] at this

/-- **C130 (exact arithmetic).**  Without rounding errors the models in floating point arithmetic are the exact ones. -/
theorem C130_exact (ha : Accurate a 0 fun _ => 0) {L : ℕ} {q q' Q' : Mom L} {d : V3} {l : ℕ} {m : ℤ} (hl : l ≤ L) (hm : m.natAbs ≤ l) :
    (Flt.translate_qlm a q d q' → q'.get l m = (Newt.translate_qlm q d).get l m) ∧
    (Flt.translate_Qlmb a q d q' → q'.get l m = (Newt.translate_Qlmb q d).get l m) ∧
    (Flt.translate_q2Q a q d Q' → ∃ Q, Newt.translate_q2Q q d = some Q ∧ Q'.get l m = Q.get l m) ∧
    ∀ (j1 j2 m1 m2 J M : ℤ) (c : ℝ), Flt.cgCoeff a j1 j2 m1 m2 J M c → c = Newt.cgCoeff j1 j2 m1 m2 J M := by
  have hr : ∀ k, relErr 0 k = 0 := fun k => by simp [relErr]
  have hg : ∀ L N, transGrow 0 0 0 L N - 1 = 0 := fun L N => by simp [transGrow, hr]
  have hdd : PolarAccuracy 0 0 [⟨1, d⟩] := ⟨le_rfl, fun p _ => Or.inl (by rw [hr]; simp)⟩
  refine ⟨fun h => ?_, fun h => ?_, fun h => ?_, fun j1 j2 m1 m2 J M c h => ?_⟩
  · have := C130_inner le_rfl one_pos ha hdd (eps := 0) (by simp) h hl hm
    rw [hg, zero_mul] at this
    exact sub_eq_zero.1 (norm_eq_zero.1 (le_antisymm this (norm_nonneg _)))
  · have := C130_outer le_rfl one_pos ha hdd (eps := 0) (by simp) h hl hm
    rw [hg, zero_mul] at this
    exact sub_eq_zero.1 (norm_eq_zero.1 (le_antisymm this (norm_nonneg _)))
  · obtain ⟨Q, e0, hw⟩ := C130_cross le_rfl one_pos ha hdd (eps := 0) (by simp) h
    refine ⟨Q, e0, ?_⟩
    have := hw l m hl hm
    rw [hg, zero_mul] at this
    exact sub_eq_zero.1 (norm_eq_zero.1 (le_antisymm this (norm_nonneg _)))
  · have := cg_within le_rfl one_pos ha h
    rw [hr, zero_mul, Real.exp_zero, one_mul, grow, hr, add_zero, sub_self, zero_mul] at this
    exact sub_eq_zero.1 (abs_eq_zero.1 (le_antisymm this (abs_nonneg _)))

/-! ## From the rows to the translated moments -/

theorem inner_points_within (h0 : 0 ≤ u) (h1 : u ≤ 1 / 4) (ha : Accurate a u e) (A : PtArray) (d : V3) {r dA dd eps : ℝ} (hr : 0 ≤ r) (hA : ∀ p ∈ A, originDist p ≤ r)
    (hdA : PolarAccuracy u dA A) (hdd : PolarAccuracy u dd [⟨1, d⟩]) {L : ℕ} (heps : ∀ l, l ≤ L → e l ≤ eps * harmMax l) {q q' : Mom L} (hq : Flt.qmoments a L A q)
    (h : Flt.translate_qlm a q d q') {l : ℕ} {m : ℤ} (hl : l ≤ L) (hm : m.natAbs ≤ l) :
    Within (transGrow u dd eps L L * ((1 + relErr u (3 * L + 3 + A.length)) * (1 + (eps + L * (Real.pi * (dA + 8 * u))))))
      ((2 * l + 1) * (absMass A * (r + modulus d) ^ l * harmMax l)) (innerMoment (translate_point_array A d) l m) (q'.get l m) := by
  have h1' : u < 1 := by linarith
  have hpi := Real.pi_pos
  have he := eps_nonneg ha heps
  have kT := transGrow_one_le h0 h1' hdd.1 he L L
  have hd0 := modulus_nonneg d
  have hK := absMass_nonneg A
  set c := grow u (3 * L + 3 + A.length) * (1 + (eps + L * (Real.pi * (dA + 8 * u)))) with hc
  have kc : 1 ≤ c := one_le_mul_of_one_le_of_one_le (grow_one_le h0 h1' _) (by
    have := hdA.1
    have : 0 ≤ (L : ℝ) * (Real.pi * (dA + 8 * u)) := by positivity
    linarith)
  have hw : ∀ (l : ℕ) (m : ℤ), l ≤ L → m.natAbs ≤ l → Within c (absMass A * r ^ l * harmMax l) ((Mom.ofFn L (innerMoment A)).get l m) (q.get l m) := by
    intro l m hl hm
    rw [Mom.get_ofFn _ hl (by omega)]
    have := inner_within h0 h1 ha hdA heps hA hq hl (m := m) (by omega)
    rwa [if_pos hm] at this
  have eT : (Newt.translate_qlm (Mom.ofFn L (innerMoment A)) d).get l m = innerMoment (translate_point_array A d) l m := by
    rw [translate_qlm_closed _ (innerMoment_valid L A), Mom.get_ofFn _ hl (by omega), trInner_innerMoment L A d l hl m]
  have key : Within (transGrow u dd eps L L * c) ((2 * l + 1) * (absMass A * (r + modulus d) ^ l * harmMax l)) ((Newt.translate_qlm (Mom.ofFn L (innerMoment A)) d).get l m) (q'.get l m) := by
    by_cases hd : d = 0
    · subst hd
      rw [disp_zero h0 h1' ha h, C19_zero]
      refine (hw l m hl hm).mono kc (le_mul_of_one_le_left (by linarith) kT) ?_
      have e0 : modulus (0 : V3) = 0 := (modulus_eq_zero _).2 rfl
      rw [e0, add_zero]
      refine le_mul_of_one_le_left (by have := harmMax_nonneg l; positivity) ?_
      have : (0 : ℝ) ≤ l := Nat.cast_nonneg _
      linarith
    · refine (inner_tr_within h0 h1' ha kc hw hd hdd heps h hl hm).mono (one_le_mul_of_one_le_of_one_le kT kc) le_rfl ?_
      exact grossInner_le hK hr hd0 (w := fun l _ => absMass A * r ^ l * harmMax l) (fun l m _ _ => le_rfl) _
  rw [eT] at key
  exact key

/-- **C130 (from an array to the moments of the moved array).**  The moments of the rows, computed and then translated in floating point arithmetic, are the
moments of the moved rows up to the two rounding errors, relative to the largest that a moment of such an array can be. -/
theorem C130_inner_points (h0 : 0 ≤ u) (h1 : u ≤ 1 / 4) (ha : Accurate a u e) (A : PtArray) (d : V3) {r dA dd eps : ℝ} (hr : 0 ≤ r) (hA : ∀ p ∈ A, originDist p ≤ r)
    (hdA : PolarAccuracy u dA A) (hdd : PolarAccuracy u dd [⟨1, d⟩]) {L : ℕ} (heps : ∀ l, l ≤ L → e l ≤ eps * harmMax l) {q q' : Mom L} (hq : Flt.qmoments a L A q)
    (h : Flt.translate_qlm a q d q') {l : ℕ} {m : ℤ} (hl : l ≤ L) (hm : m.natAbs ≤ l) :
    ‖q'.get l m - innerMoment (translate_point_array A d) l m‖ ≤
      (transGrow u dd eps L L * ((1 + relErr u (3 * L + 3 + A.length)) * (1 + (eps + L * (Real.pi * (dA + 8 * u))))) - 1) *
      ((2 * l + 1) * (absMass A * (r + modulus d) ^ l * harmMax l)) :=
  (inner_points_within h0 h1 ha A d hr hA hdA hdd heps hq h hl hm).2

/-- **C130 (outer moments of an array outside radius `R`, moved by less than `R`).**  Compared with the exact translation of the exact moments (C60 gives its
distance from the moments of the moved array). -/
theorem C130_outer_points (h0 : 0 ≤ u) (h1 : u ≤ 1 / 4) (ha : Accurate a u e) (B : PtArray) (d : V3) {R dB dd eps : ℝ} (hR : modulus d < R) (hB : ∀ p ∈ B, R ≤ originDist p)
    (hdB : PolarAccuracy u dB B) (hdd : PolarAccuracy u dd [⟨1, d⟩]) {L : ℕ} (heps : ∀ l, l ≤ L → e l ≤ eps * harmMax l) {Q Q' : Mom L} (hQ : Flt.Qmomentsb a L B Q)
    (h : Flt.translate_Qlmb a Q d Q') {l : ℕ} {m : ℤ} (hl : l ≤ L) (hm : m.natAbs ≤ l) :
    ‖Q'.get l m - (Newt.translate_Qlmb (Newt.Qmomentsb L B) d).get l m‖ ≤
      (transGrow u dd eps L L * ((1 + relErr u (3 * L + 7 + B.length)) * (1 + (eps + L * (Real.pi * (dB + 8 * u))))) - 1) *
      ((2 * L + 1) * (absMass B * (1 / (R - modulus d) ^ (l + 1)) * harmMax l)) := by
  have h1' : u < 1 := by linarith
  have hpi := Real.pi_pos
  have he := eps_nonneg ha heps
  have kT := transGrow_one_le h0 h1' hdd.1 he L L
  have hd0 := modulus_nonneg d
  have hK := absMass_nonneg B
  have hR0 : 0 < R := by linarith
  have hoff : OffOrigin B := fun p hp hc => by
    have h2 := hB p hp
    have h3 : originDist p = 0 := by rw [originDist_eq, modulus_eq_zero]; exact hc
    linarith
  rw [Qmomentsb_closed L B hoff]
  set c := grow u (3 * L + 7 + B.length) * (1 + (eps + L * (Real.pi * (dB + 8 * u)))) with hc
  have kc : 1 ≤ c := one_le_mul_of_one_le_of_one_le (grow_one_le h0 h1' _) (by
    have := hdB.1
    have : 0 ≤ (L : ℝ) * (Real.pi * (dB + 8 * u)) := by positivity
    linarith)
  have hw : ∀ (l : ℕ) (m : ℤ), l ≤ L → m.natAbs ≤ l → Within c (absMass B * (1 / R ^ (l + 1)) * harmMax l) ((Mom.ofFn L (outerMoment B)).get l m) (Q.get l m) := by
    intro l m hl hm
    rw [Mom.get_ofFn _ hl (by omega)]
    have := outer_within h0 h1 ha hdB heps hR0 hB hQ hl (m := m) (by omega)
    rwa [if_pos hm] at this
  have key : Within (transGrow u dd eps L L * c) ((2 * L + 1) * (absMass B * (1 / (R - modulus d) ^ (l + 1)) * harmMax l)) ((Newt.translate_Qlmb (Mom.ofFn L (outerMoment B)) d).get l m) (Q'.get l m) := by
    by_cases hd : d = 0
    · subst hd
      rw [disp_zero' h0 h1' ha h, C20_zero]
      refine (hw l m hl hm).mono kc (le_mul_of_one_le_left (by linarith) kT) ?_
      have e0 : modulus (0 : V3) = 0 := (modulus_eq_zero _).2 rfl
      rw [e0, sub_zero]
      refine le_mul_of_one_le_left (by have := harmMax_nonneg l; positivity) ?_
      have : (0 : ℝ) ≤ L := Nat.cast_nonneg _
      linarith
    · refine (outer_tr_within h0 h1' ha kc hw hd hdd heps h hl hm).mono (one_le_mul_of_one_le_of_one_le kT kc) le_rfl ?_
      exact grossOuter_le hK hd0 hR hl (w := fun l _ => absMass B * (1 / R ^ (l + 1)) * harmMax l) (fun l m _ _ => le_rfl) _
  exact key.2

/-- **C130 (outer moments from the inner ones of an array inside radius `r`, moved by more than `r`).**  Compared with the exact calculation from the exact moments
(C59 gives its distance from the outer moments of the moved array). -/
theorem C130_cross_points (h0 : 0 ≤ u) (h1 : u ≤ 1 / 4) (ha : Accurate a u e) (A : PtArray) (d : V3) {r dA dd eps : ℝ} (hr : 0 ≤ r) (hd : r < modulus d)
    (hA : ∀ p ∈ A, originDist p ≤ r) (hdA : PolarAccuracy u dA A) (hdd : PolarAccuracy u dd [⟨1, d⟩]) {L : ℕ} (heps : ∀ l, l ≤ 2 * L → e l ≤ eps * harmMax l) {q Q' : Mom L}
    (hq : Flt.qmoments a L A q) (h : Flt.translate_q2Q a q d Q') :
    ∃ q0 Q0, Newt.qmoments L A = some q0 ∧ Newt.translate_q2Q q0 d = some Q0 ∧ ∀ (l : ℕ) (m : ℤ), l ≤ L → m.natAbs ≤ l →
      ‖Q'.get l m - Q0.get l m‖ ≤
        (transGrow u dd eps L (2 * L) * ((1 + relErr u (3 * L + 3 + A.length)) * (1 + (eps + L * (Real.pi * (dA + 8 * u))))) - 1) *
        ((2 * L + 1) * (absMass A * (1 / (modulus d - r) ^ (l + 1)) * harmMax l)) := by
  have h1' : u < 1 := by linarith
  have hpi := Real.pi_pos
  have he := eps_nonneg ha heps
  have kT := transGrow_one_le h0 h1' hdd.1 he L (2 * L)
  have hK := absMass_nonneg A
  obtain ⟨q0, hq0, -⟩ := C127_inner h0 h1 ha hq
  have e0 := hq0
  rw [qmoments_closed L A (qmoments_some hq0)] at e0
  obtain rfl := Option.some.inj e0
  have hdn := q2Q_ne h0 h1' ha h
  refine ⟨_, _, hq0, translate_q2Q_fill _ hdn, fun l m hl hm => ?_⟩
  set c := grow u (3 * L + 3 + A.length) * (1 + (eps + L * (Real.pi * (dA + 8 * u)))) with hc
  have kc : 1 ≤ c := one_le_mul_of_one_le_of_one_le (grow_one_le h0 h1' _) (by
    have := hdA.1
    have : 0 ≤ (L : ℝ) * (Real.pi * (dA + 8 * u)) := by positivity
    linarith)
  have hw : ∀ (l : ℕ) (m : ℤ), l ≤ L → m.natAbs ≤ l → Within c (absMass A * r ^ l * harmMax l) ((Mom.ofFn L (innerMoment A)).get l m) (q.get l m) := by
    intro l m hl hm
    rw [Mom.get_ofFn _ hl (by omega)]
    have := inner_within h0 h1 ha hdA (fun l hl => heps l (by omega)) hA hq hl (m := m) (by omega)
    rwa [if_pos hm] at this
  have key := (cross_tr_within h0 h1' ha kc hw hdn hdd heps (translate_q2Q_fill _ hdn) h hl hm).mono (one_le_mul_of_one_le_of_one_le kT kc) le_rfl
    (grossCross_le hK hr hd (w := fun l _ => absMass A * r ^ l * harmMax l) (fun l m _ _ => le_rfl) m)
  exact key.2

/-! ## Every legal call returns -/

theorem gam6_exists (hT : Total a) (x1 x2 x3 x4 x5 x6 : ℝ) : ∃ s, Gam6 a x1 x2 x3 x4 x5 x6 s := by
  obtain ⟨g1, b1⟩ := hT.lib (gammaln x1)
  obtain ⟨g2, b2⟩ := hT.lib (gammaln x2)
  obtain ⟨p, b3⟩ := hT.op (g1 + g2)
  obtain ⟨g3, b4⟩ := hT.lib (gammaln x3)
  obtain ⟨g4, b5⟩ := hT.lib (gammaln x4)
  obtain ⟨q, b6⟩ := hT.op (g3 + g4)
  obtain ⟨t, b7⟩ := hT.op (p + q)
  obtain ⟨g5, b8⟩ := hT.lib (gammaln x5)
  obtain ⟨g6, b9⟩ := hT.lib (gammaln x6)
  obtain ⟨r, b10⟩ := hT.op (g5 + g6)
  obtain ⟨s, b11⟩ := hT.op (t + r)
  exact ⟨s, g1, g2, g3, g4, g5, g6, p, q, t, r, b1, b2, b3, b4, b5, b6, b7, b8, b9, b10, b11⟩

theorem cgBody_exists (hT : Total a) (delta : ℝ) (j1 j2 m1 m2 J M : ℤ) : ∃ c, CgBody a delta j1 j2 m1 m2 J M c := by
  obtain ⟨g1, b1⟩ := hT.lib (gammaln (J + j1 - j2 + 1))
  obtain ⟨g2, b2⟩ := hT.lib (gammaln (J - j1 + j2 + 1))
  obtain ⟨p, b3⟩ := hT.op (g1 + g2)
  obtain ⟨g3, b4⟩ := hT.lib (gammaln (j1 + j2 - J + 1))
  obtain ⟨g4, b5⟩ := hT.lib (gammaln (j1 + j2 + J + 2))
  obtain ⟨q, b6⟩ := hT.op (g3 - g4)
  obtain ⟨s, b7⟩ := hT.op (p + q)
  obtain ⟨v, b8⟩ := hT.lib (Real.exp s)
  obtain ⟨w, b9⟩ := hT.op ((2 * J + 1) * v)
  obtain ⟨f1, b10⟩ := hT.op (Real.sqrt w)
  obtain ⟨s2, d1⟩ := gam6_exists hT (J + M + 1) (J - M + 1) (j1 - m1 + 1) (j1 + m1 + 1) (j2 - m2 + 1) (j2 + m2 + 1)
  obtain ⟨v2, d2⟩ := hT.lib (Real.exp s2)
  obtain ⟨f2, d3⟩ := hT.op (Real.sqrt v2)
  obtain ⟨ts, hts⟩ := forall₂_exists (R := CgTerm a j1 j2 m1 m2 J)
    (zrange (max (max 0 (j2 - m1 - J)) (j1 + m2 - J)) (min (min (j1 + j2 - J) (j1 - m1)) (j2 + m2))) fun k _ => by
      obtain ⟨s, k1⟩ := gam6_exists hT (k + 1) (j1 + j2 - J - k + 1) (j1 - m1 - k + 1) (j2 + m2 - k + 1) (J - j2 + m1 + k + 1) (J - j1 - m2 + k + 1)
      obtain ⟨v, k2⟩ := hT.lib (Real.exp s)
      obtain ⟨t, k3⟩ := hT.op ((-1) ^ k / v)
      exact ⟨t, s, v, k1, k2, k3⟩
  obtain ⟨sm, hsm⟩ := adds_exists hT ts 0
  obtain ⟨p', e1⟩ := hT.op (delta * f1 * f2)
  obtain ⟨c, e2⟩ := hT.op (p' * sm)
  exact ⟨c, f1, f2, ts, sm, p', ⟨g1, g2, g3, g4, p, q, s, v, w, b1, b2, b3, b4, b5, b6, b7, b8, b9, b10⟩, ⟨s2, v2, d1, d2, d3⟩, hts, hsm, e1, e2⟩

theorem cg_exists (hT : Total a) (j1 j2 m1 m2 J M : ℤ) : ∃ c, Flt.cgCoeff a j1 j2 m1 m2 J M c := by
  unfold Flt.cgCoeff
  by_cases h1 : j1 < |m1| ∨ j2 < |m2| ∨ J < |M|
  · exact ⟨0, by rw [if_pos h1]⟩
  by_cases h2 : J > j1 + j2 ∨ J < |j1 - j2|
  · exact ⟨0, by rw [if_neg h1, if_pos h2]⟩
  by_cases h3 : M < 0
  · obtain ⟨c, hc⟩ := cgBody_exists hT ((if M = m1 + m2 then 1 else 0) * (-1) ^ (J - j1 - j2)) j1 j2 (-m1) (-m2) J (-M)
    exact ⟨c, by rw [if_neg h1, if_neg h2, if_pos h3]; exact hc⟩
  · obtain ⟨c, hc⟩ := cgBody_exists hT (if M = m1 + m2 then 1 else 0) j1 j2 m1 m2 J M
    exact ⟨c, by rw [if_neg h1, if_neg h2, if_neg h3]; exact hc⟩

theorem trFac_exists (hT : Total a) (x y z : ℝ) : ∃ f, TrFac a x y z f := by
  obtain ⟨g1, b1⟩ := hT.lib (gammaln x)
  obtain ⟨g2, b2⟩ := hT.lib (gammaln y)
  obtain ⟨h, b3⟩ := hT.op (g1 - g2)
  obtain ⟨g3, b4⟩ := hT.lib (gammaln z)
  obtain ⟨s, b5⟩ := hT.op (h - g3)
  obtain ⟨v, b6⟩ := hT.lib (Real.exp s)
  obtain ⟨p, b7⟩ := hT.op (4 * Real.pi)
  obtain ⟨w, b8⟩ := hT.op (p * v)
  obtain ⟨f, b9⟩ := hT.op (Real.sqrt w)
  exact ⟨f, g1, g2, g3, h, s, v, p, w, b1, b2, b3, b4, b5, b6, b7, b8, b9⟩

theorem trTerm_exists (hT : Total a) (fac c sgn : ℝ) (y q : ℂ) : ∃ t, TrTerm a fac c sgn y q t := by
  obtain ⟨cf, k1⟩ := hT.op (fac * c)
  obtain ⟨z, k2⟩ := cscale_exists hT (cf * sgn) y
  obtain ⟨t, k3⟩ := cmul_exists hT z q
  exact ⟨t, cf, z, k1, k2, k3⟩

theorem disp_exists (hT : Total a) {b : ℕ} (hb : 1 ≤ b) (hop : ∀ x y, a.op x y → Nearest b x y) {d : V3} (hz : Rep b (d 2)) {r : ℝ} (hr : Rad a ⟨1, d⟩ r) :
    ∃ phi theta, Disp a d r phi theta := by
  obtain ⟨c, hc⟩ := hT.op (d 2 / r)
  obtain ⟨theta, ht⟩ := hT.lib (Real.arccos c)
  obtain ⟨phi, hf⟩ := hT.lib (arctan2 (d 1) (d 0))
  exact ⟨phi, theta, hr, hf, c, hc, (C127_no_nan hb hop (p := ⟨1, d⟩) hz hr hc).2, ht⟩

/-- **C130 (calls that return).**  In an arithmetic rounded to nearest, with a displacement whose `z` component is a floating point number, every call of
`cgCoeff`, `translate_qlm` and `translate_Qlmb` returns, and `translate_q2Q` returns exactly for a displacement that is not zero, that is when the exact
routine does. -/
theorem C130_returns (h0 : 0 ≤ u) (h1 : u < 1) (ha : Accurate a u e) (hT : Total a) {b : ℕ} (hb : 1 ≤ b) (hop : ∀ x y, a.op x y → Nearest b x y) {L : ℕ} (q : Mom L)
    {d : V3} (hz : Rep b (d 2)) :
    (∃ q', Flt.translate_qlm a q d q') ∧ (∃ Q', Flt.translate_Qlmb a q d Q') ∧ ((∃ Q', Flt.translate_q2Q a q d Q') ↔ d ≠ 0) ∧
    ((∃ Q', Flt.translate_q2Q a q d Q') ↔ (Newt.translate_q2Q q d).isSome) ∧ ∀ j1 j2 m1 m2 J M, ∃ c, Flt.cgCoeff a j1 j2 m1 m2 J M c := by
  obtain ⟨r, hr⟩ := rad_exists hT ⟨1, d⟩
  obtain ⟨phi, theta, hdisp⟩ := disp_exists hT hb hop hz hr
  choose Y hY using fun (l : ℕ) (m : ℤ) => hT.harm m l phi theta
  have hcross : d ≠ 0 → ∃ Q', Flt.translate_q2Q a q d Q' := by
    intro hd
    have hr0 : r ≠ 0 := fun h => hd ((rad_zero_iff h0 h1 ha hr).1 h)
    have hf : ∀ (L' : ℕ) (M : ℤ), ∃ s : ℂ, ∃ ts, List.Forall₂ (fun (i : ℕ × ℤ) t => ∃ f0 rl fac c,
        TrFac a (2 * (L' + i.1 : ℕ) + 1) (2 * i.1 + 2) (2 * L' + 1) f0 ∧
        a.lib (r ^ (L' + i.1 + 1)) rl ∧ a.op (f0 / rl) fac ∧ Flt.cgCoeff a i.1 (L' + i.1 : ℕ) (-i.2) (M + i.2) L' M c ∧
        TrTerm a fac c ((-1) ^ i.2) (Y (L' + i.1) (M + i.2)) (q.get i.1 i.2) t) (crossIdx L L' M) ts ∧ CAdds a ts 0 s := by
      intro L' M
      obtain ⟨ts, hts⟩ := forall₂_exists (R := fun (i : ℕ × ℤ) t => ∃ f0 rl fac c,
        TrFac a (2 * (L' + i.1 : ℕ) + 1) (2 * i.1 + 2) (2 * L' + 1) f0 ∧
        a.lib (r ^ (L' + i.1 + 1)) rl ∧ a.op (f0 / rl) fac ∧ Flt.cgCoeff a i.1 (L' + i.1 : ℕ) (-i.2) (M + i.2) L' M c ∧
        TrTerm a fac c ((-1) ^ i.2) (Y (L' + i.1) (M + i.2)) (q.get i.1 i.2) t) (crossIdx L L' M) fun i _ => by
          obtain ⟨f0, k1⟩ := trFac_exists hT (2 * (L' + i.1 : ℕ) + 1) (2 * i.1 + 2) (2 * L' + 1)
          obtain ⟨rl, k2⟩ := hT.lib (r ^ (L' + i.1 + 1))
          obtain ⟨fac, k3⟩ := hT.op (f0 / rl)
          obtain ⟨c, k4⟩ := cg_exists hT i.1 (L' + i.1 : ℕ) (-i.2) (M + i.2) L' M
          obtain ⟨t, k5⟩ := trTerm_exists hT fac c ((-1) ^ i.2) (Y (L' + i.1) (M + i.2)) (q.get i.1 i.2)
          exact ⟨t, f0, rl, fac, c, k1, k2, k3, k4, k5⟩
      obtain ⟨s, hs⟩ := cadds_exists hT ts 0
      exact ⟨s, ts, hts, hs⟩
    choose f hf using hf
    exact ⟨_, r, phi, theta, Y, f, hr0, hdisp, fun l m _ _ => hY l m, fun L' M _ _ => hf L' M, rfl⟩
  have hiff : (∃ Q', Flt.translate_q2Q a q d Q') ↔ d ≠ 0 := ⟨fun ⟨Q', h⟩ => q2Q_ne h0 h1 ha h, hcross⟩
  refine ⟨?_, ?_, hiff, hiff.trans ?_, cg_exists hT⟩
  · by_cases hr0 : r = 0
    · exact ⟨q, Or.inl ⟨hr0 ▸ hr, rfl⟩⟩
    have hf : ∀ (L' : ℕ) (M : ℤ), ∃ s : ℂ, ∃ ts, List.Forall₂ (fun (i : ℕ × ℤ) t => ∃ f0 rl fac c, TrFac a (2 * L' + 2) (2 * (L' - i.1 : ℕ) + 2) (2 * i.1 + 2) f0 ∧
        a.lib (r ^ (L' - i.1)) rl ∧ a.op (f0 * rl) fac ∧ Flt.cgCoeff a (L' - i.1 : ℕ) i.1 (M - i.2) i.2 L' M c ∧
        TrTerm a fac c 1 ((starRingEnd ℂ) (Y (L' - i.1) (M - i.2))) (q.get i.1 i.2) t) (innerIdx L' M) ts ∧ CAdds a ts 0 s := by
      intro L' M
      obtain ⟨ts, hts⟩ := forall₂_exists (R := fun (i : ℕ × ℤ) t => ∃ f0 rl fac c, TrFac a (2 * L' + 2) (2 * (L' - i.1 : ℕ) + 2) (2 * i.1 + 2) f0 ∧
        a.lib (r ^ (L' - i.1)) rl ∧ a.op (f0 * rl) fac ∧ Flt.cgCoeff a (L' - i.1 : ℕ) i.1 (M - i.2) i.2 L' M c ∧
        TrTerm a fac c 1 ((starRingEnd ℂ) (Y (L' - i.1) (M - i.2))) (q.get i.1 i.2) t) (innerIdx L' M) fun i _ => by
          obtain ⟨f0, k1⟩ := trFac_exists hT (2 * L' + 2) (2 * (L' - i.1 : ℕ) + 2) (2 * i.1 + 2)
          obtain ⟨rl, k2⟩ := hT.lib (r ^ (L' - i.1))
          obtain ⟨fac, k3⟩ := hT.op (f0 * rl)
          obtain ⟨c, k4⟩ := cg_exists hT (L' - i.1 : ℕ) i.1 (M - i.2) i.2 L' M
          obtain ⟨t, k5⟩ := trTerm_exists hT fac c 1 ((starRingEnd ℂ) (Y (L' - i.1) (M - i.2))) (q.get i.1 i.2)
          exact ⟨t, f0, rl, fac, c, k1, k2, k3, k4, k5⟩
      obtain ⟨s, hs⟩ := cadds_exists hT ts 0
      exact ⟨s, ts, hts, hs⟩
    choose f hf using hf
    exact ⟨_, Or.inr ⟨r, phi, theta, Y, f, hr0, hdisp, fun l m _ _ => hY l m, fun L' M _ _ _ => hf L' M, rfl⟩⟩
  · by_cases hr0 : r = 0
    · exact ⟨q, Or.inl ⟨hr0 ▸ hr, rfl⟩⟩
    have hf : ∀ (L' : ℕ) (M : ℤ), ∃ s : ℂ, ∃ ts, List.Forall₂ (fun (i : ℕ × ℤ) t => ∃ f0 rl fac c, TrFac a (2 * i.1 + 1) (2 * (i.1 - L' : ℕ) + 2) (2 * L' + 1) f0 ∧
        a.lib (r ^ (i.1 - L')) rl ∧ a.op (f0 * rl) fac ∧ Flt.cgCoeff a (i.1 - L' : ℕ) i.1 (M - i.2) i.2 L' M c ∧
        TrTerm a fac c 1 (Y (i.1 - L') (M - i.2)) (q.get i.1 i.2) t) (outerIdx L L' M) ts ∧ CAdds a ts 0 s := by
      intro L' M
      obtain ⟨ts, hts⟩ := forall₂_exists (R := fun (i : ℕ × ℤ) t => ∃ f0 rl fac c, TrFac a (2 * i.1 + 1) (2 * (i.1 - L' : ℕ) + 2) (2 * L' + 1) f0 ∧
        a.lib (r ^ (i.1 - L')) rl ∧ a.op (f0 * rl) fac ∧ Flt.cgCoeff a (i.1 - L' : ℕ) i.1 (M - i.2) i.2 L' M c ∧
        TrTerm a fac c 1 (Y (i.1 - L') (M - i.2)) (q.get i.1 i.2) t) (outerIdx L L' M) fun i _ => by
          obtain ⟨f0, k1⟩ := trFac_exists hT (2 * i.1 + 1) (2 * (i.1 - L' : ℕ) + 2) (2 * L' + 1)
          obtain ⟨rl, k2⟩ := hT.lib (r ^ (i.1 - L'))
          obtain ⟨fac, k3⟩ := hT.op (f0 * rl)
          obtain ⟨c, k4⟩ := cg_exists hT (i.1 - L' : ℕ) i.1 (M - i.2) i.2 L' M
          obtain ⟨t, k5⟩ := trTerm_exists hT fac c 1 (Y (i.1 - L') (M - i.2)) (q.get i.1 i.2)
          exact ⟨t, f0, rl, fac, c, k1, k2, k3, k4, k5⟩
      obtain ⟨s, hs⟩ := cadds_exists hT ts 0
      exact ⟨s, ts, hts, hs⟩
    choose f hf using hf
    exact ⟨_, Or.inr ⟨r, phi, theta, Y, f, hr0, hdisp, fun l m _ _ => hY l m, fun L' M _ _ _ => hf L' M, rfl⟩⟩
  · constructor
    · intro hd
      rw [translate_q2Q_fill q hd]; rfl
    · rintro h rfl
      rw [Newt.translate_q2Q] at h
      simp only [if_pos ((rPOf_eq_zero 0).2 rfl)] at h
      cases h

/-! ## Sizes in double precision -/

theorem exp_le_of {x : ℝ} {y : ℝ} (hx : x ≤ y) (h1 : y ≤ 1 / 2) (h0 : 0 ≤ y) : Real.exp x ≤ 1 + 2 * y := by
  refine (Real.exp_le_exp.2 hx).trans ?_
  have h4 := Real.add_one_le_exp (-y)
  have h6 : Real.exp y * Real.exp (-y) = 1 := by rw [← Real.exp_add]; simp
  have h7 := Real.exp_pos y
  have h8 : Real.exp y * (-y + 1) ≤ 1 := (mul_le_mul_of_nonneg_left h4 h7.le).trans h6.le
  have h9 : 1 ≤ (1 + 2 * y) * (-y + 1) := by nlinarith
  have h10 : 0 < -y + 1 := by linarith
  exact le_of_mul_le_mul_right (h8.trans h9) h10

/-- **C130 (double precision).**  Up to degree 10, with every operation accurate to `2^-53`: a translation of given moments is accurate to `4e-12` of the
translation without regard to sign if `sph_harm` is accurate to `1e-13` of its largest value and the displacement is not within 6 degrees of the `z` axis, and to
`2e-6` for any displacement if `sph_harm` is accurate to `1e-7`; the coefficients that it uses have a relative error of at most `2e-12`. -/
theorem C130_double {L N : ℕ} (hL : L ≤ 10) (hN : N ≤ 20) {eps : ℝ} (heps : 0 ≤ eps) :
    (eps ≤ 1e-13 → transGrow ((2 : ℝ)⁻¹ ^ 53) (relErr ((2 : ℝ)⁻¹ ^ 53) 4 / (1 / 10)) eps L N - 1 ≤ 4e-12) ∧
    (eps ≤ 1e-7 → transGrow ((2 : ℝ)⁻¹ ^ 53) (Real.sqrt (relErr ((2 : ℝ)⁻¹ ^ 53) 4 / 2)) eps L N - 1 ≤ 2e-6) ∧
    Real.exp (relErr ((2 : ℝ)⁻¹ ^ 53) 4 * (6 * Real.log (fct (2 * N + 1 : ℕ)))) * (1 + relErr ((2 : ℝ)⁻¹ ^ 53) 10) - 1 ≤ 2e-12 := by
  have hu : (0 : ℝ) ≤ (2 : ℝ)⁻¹ ^ 53 := by positivity
  have hu1 : (2 : ℝ)⁻¹ ^ 53 < 1 := by norm_num
  have h4 : relErr ((2 : ℝ)⁻¹ ^ 53) 4 ≤ 8 * (2 : ℝ)⁻¹ ^ 53 := by
    have := C112_size hu 4 (by norm_num)
    push_cast at this
    linarith
  have h40 := relErr_nonneg hu hu1 4
  have hlog : Real.log ((2 * N + 1).factorial) ≤ 165 := by
    have k1 : (2 * N + 1).factorial ≤ 2 ^ 165 := (Nat.factorial_le (by omega : 2 * N + 1 ≤ 41)).trans (by decide +kernel)
    have k2 : (((2 * N + 1).factorial : ℕ) : ℝ) ≤ 2 ^ 165 := by exact_mod_cast k1
    calc Real.log ((2 * N + 1).factorial) ≤ Real.log (2 ^ 165) := Real.log_le_log (by exact_mod_cast Nat.factorial_pos _) k2
      _ = 165 * Real.log 2 := by rw [Real.log_pow]; norm_num
      _ ≤ 165 * 1 := by
          have := Real.log_le_sub_one_of_pos (by norm_num : (0 : ℝ) < 2)
          linarith
      _ = 165 := by norm_num
  have hlog0 := log_fact_nonneg (2 * N + 1)
  have hx : ∀ k : ℝ, 0 ≤ k → relErr ((2 : ℝ)⁻¹ ^ 53) 4 * (k * Real.log ((2 * N + 1).factorial)) ≤ 8 * (2 : ℝ)⁻¹ ^ 53 * (k * 165) := fun k hk => by gcongr
  have hE9 : Real.exp (relErr ((2 : ℝ)⁻¹ ^ 53) 4 * (9 * Real.log ((2 * N + 1).factorial))) ≤ 1 + 2 * 1.33e-12 :=
    exp_le_of ((hx 9 (by norm_num)).trans (by norm_num)) (by norm_num) (by norm_num)
  have hE90 := Real.exp_pos (relErr ((2 : ℝ)⁻¹ ^ 53) 4 * (9 * Real.log ((2 * N + 1).factorial)))
  have hE6 : Real.exp (relErr ((2 : ℝ)⁻¹ ^ 53) 4 * (6 * Real.log ((2 * N + 1).factorial))) ≤ 1 + 2 * 8.9e-13 :=
    exp_le_of ((hx 6 (by norm_num)).trans (by norm_num)) (by norm_num) (by norm_num)
  have hsq : 25 + 6 * L + (L + 1) ^ 2 ≤ 206 := by have := Nat.pow_le_pow_left (by omega : L + 1 ≤ 11) 2; omega
  have k1 := rel_double hsq (by norm_num)
  have k0 := relErr_nonneg hu hu1 (25 + 6 * L + (L + 1) ^ 2)
  have k2 : relErr ((2 : ℝ)⁻¹ ^ 53) (25 + 6 * L + (L + 1) ^ 2) ≤ 5e-14 := k1.trans (by norm_num)
  have hN' : (N : ℝ) ≤ 20 := by exact_mod_cast hN
  have hpi := Real.pi_pos
  have hpi' := Real.pi_lt_d2
  refine ⟨fun he => ?_, fun he => ?_, ?_⟩
  · have hd : relErr ((2 : ℝ)⁻¹ ^ 53) 4 / (1 / 10) ≤ 80 * (2 : ℝ)⁻¹ ^ 53 := by
      rw [div_le_iff₀ (by norm_num)]; linarith
    have hE : eps + N * (Real.pi * (relErr ((2 : ℝ)⁻¹ ^ 53) 4 / (1 / 10) + 8 * (2 : ℝ)⁻¹ ^ 53)) ≤ 7.2e-13 := by
      calc _ ≤ 1e-13 + 20 * (3.15 * (80 * (2 : ℝ)⁻¹ ^ 53 + 8 * (2 : ℝ)⁻¹ ^ 53)) := by gcongr
        _ ≤ _ := by norm_num
    have hE0 : 0 ≤ eps + N * (Real.pi * (relErr ((2 : ℝ)⁻¹ ^ 53) 4 / (1 / 10) + 8 * (2 : ℝ)⁻¹ ^ 53)) := by positivity
    rw [transGrow]
    generalize eps + N * (Real.pi * (relErr ((2 : ℝ)⁻¹ ^ 53) 4 / (1 / 10) + 8 * (2 : ℝ)⁻¹ ^ 53)) = E at hE hE0
    generalize Real.exp (relErr ((2 : ℝ)⁻¹ ^ 53) 4 * (9 * Real.log ((2 * N + 1).factorial))) = X at hE9 hE90
    have : X * (1 + relErr ((2 : ℝ)⁻¹ ^ 53) (25 + 6 * L + (L + 1) ^ 2)) * (1 + E) ≤ (1 + 2 * 1.33e-12) * (1 + 5e-14) * (1 + 7.2e-13) := by gcongr
    have h9 : (1 + 2 * 1.33e-12 : ℝ) * (1 + 5e-14) * (1 + 7.2e-13) - 1 ≤ 4e-12 := by norm_num
    linarith
  · have hd : Real.sqrt (relErr ((2 : ℝ)⁻¹ ^ 53) 4 / 2) ≤ 2.2e-8 := by
      refine Real.sqrt_le_iff.2 ⟨by norm_num, ?_⟩
      calc relErr ((2 : ℝ)⁻¹ ^ 53) 4 / 2 ≤ 8 * (2 : ℝ)⁻¹ ^ 53 / 2 := by gcongr
        _ ≤ _ := by norm_num
    have hd0 := Real.sqrt_nonneg (relErr ((2 : ℝ)⁻¹ ^ 53) 4 / 2)
    have hE : eps + N * (Real.pi * (Real.sqrt (relErr ((2 : ℝ)⁻¹ ^ 53) 4 / 2) + 8 * (2 : ℝ)⁻¹ ^ 53)) ≤ 1.6e-6 := by
      calc _ ≤ 1e-7 + 20 * (3.15 * (2.2e-8 + 8 * (2 : ℝ)⁻¹ ^ 53)) := by gcongr
        _ ≤ _ := by norm_num
    have hE0 : 0 ≤ eps + N * (Real.pi * (Real.sqrt (relErr ((2 : ℝ)⁻¹ ^ 53) 4 / 2) + 8 * (2 : ℝ)⁻¹ ^ 53)) := by positivity
    rw [transGrow]
    generalize eps + N * (Real.pi * (Real.sqrt (relErr ((2 : ℝ)⁻¹ ^ 53) 4 / 2) + 8 * (2 : ℝ)⁻¹ ^ 53)) = E at hE hE0
    generalize Real.exp (relErr ((2 : ℝ)⁻¹ ^ 53) 4 * (9 * Real.log ((2 * N + 1).factorial))) = X at hE9 hE90
    have : X * (1 + relErr ((2 : ℝ)⁻¹ ^ 53) (25 + 6 * L + (L + 1) ^ 2)) * (1 + E) ≤ (1 + 2 * 1.33e-12) * (1 + 5e-14) * (1 + 1.6e-6) := by gcongr
    have h9 : (1 + 2 * 1.33e-12 : ℝ) * (1 + 5e-14) * (1 + 1.6e-6) - 1 ≤ 2e-6 := by norm_num
    linarith
  · rw [fct, Int.toNat_natCast]
    have k3 := rel_double (k := 10) le_rfl (by norm_num)
    have k4 : relErr ((2 : ℝ)⁻¹ ^ 53) 10 ≤ 2.3e-15 := k3.trans (by norm_num)
    have k5 := relErr_nonneg hu hu1 10
    have hp := Real.exp_pos (relErr ((2 : ℝ)⁻¹ ^ 53) 4 * (6 * Real.log ((2 * N + 1).factorial)))
    have : Real.exp (relErr ((2 : ℝ)⁻¹ ^ 53) 4 * (6 * Real.log ((2 * N + 1).factorial))) * (1 + relErr ((2 : ℝ)⁻¹ ^ 53) 10) ≤ (1 + 2 * 8.9e-13) * (1 + 2.3e-15) := by gcongr
    have h9 : (1 + 2 * 8.9e-13 : ℝ) * (1 + 2.3e-15) - 1 ≤ 2e-12 := by norm_num
    linarith

-- a run of the chain in correctly rounded double precision
example : ∃ (q q' Q' : Mom 3), Flt.qmoments ieee53 3 [⟨2, ![1, 0, 1]⟩, ⟨5, ![0, 1, 0]⟩] q ∧ Flt.translate_qlm ieee53 q ![3, 0, 1] q' ∧ Flt.translate_q2Q ieee53 q ![3, 0, 1] Q' ∧
    (∀ p ∈ ([⟨2, ![1, 0, 1]⟩, ⟨5, ![0, 1, 0]⟩] : PtArray), originDist p ≤ 2) ∧ (2 : ℝ) < modulus ![3, 0, 1] ∧
    PolarAccuracy ((2 : ℝ)⁻¹ ^ 53) (relErr ((2 : ℝ)⁻¹ ^ 53) 4 / (1 / 10)) [⟨1, ![3, 0, 1]⟩] ∧ ∀ l : ℕ, (0 : ℝ) ≤ 1e-13 * harmMax l := by
  have hA : OffOrigin ([⟨2, ![1, 0, 1]⟩, ⟨5, ![0, 1, 0]⟩] : PtArray) := by
    intro p hp hc
    simp only [List.mem_cons, List.not_mem_nil, or_false] at hp
    rcases hp with rfl | rfl
    · have := congrFun hc 0; simp at this
    · have := congrFun hc 1; simp at this
  obtain ⟨q, hq⟩ := (C127_returns (u := (2 : ℝ)⁻¹ ^ 53) (by positivity) (by norm_num) ieee53_accurate ieee53_total (b := 53) (by norm_num) ieee53_nearest 3
    [⟨2, ![1, 0, 1]⟩, ⟨5, ![0, 1, 0]⟩] (by
      intro p hp
      simp only [List.mem_cons, List.not_mem_nil, or_false] at hp
      rcases hp with rfl | rfl
      · exact rep_one (by norm_num)
      · exact rep_zero _)).2 (by rw [qmoments_closed 3 _ (Or.inr hA.originLast)]; rfl)
  have hd : (![3, 0, 1] : V3) ≠ 0 := fun h => by have := congrFun h 2; simp at this
  have R := C130_returns (u := (2 : ℝ)⁻¹ ^ 53) (by positivity) (by norm_num) ieee53_accurate ieee53_total (b := 53) (by norm_num) ieee53_nearest q (d := ![3, 0, 1])
    (rep_one (by norm_num))
  obtain ⟨q', hq'⟩ := R.1
  obtain ⟨Q', hQ'⟩ := R.2.2.1.2 hd
  refine ⟨q, q', Q', hq, hq', hQ', ?_, ?_, ⟨?_, ?_⟩, fun l => by have := harmMax_nonneg l; positivity⟩
  · intro p hp
    simp only [List.mem_cons, List.not_mem_nil, or_false] at hp
    rcases hp with rfl | rfl
    · rw [originDist, Real.sqrt_le_left (by norm_num)]; simp only [Matrix.cons_val]; norm_num
    · rw [originDist, Real.sqrt_le_left (by norm_num)]; simp only [Matrix.cons_val]; norm_num
  · rw [modulus]
    refine Real.lt_sqrt_of_sq_lt ?_
    simp only [Matrix.cons_val]
    norm_num
  · have := relErr_nonneg (u := (2 : ℝ)⁻¹ ^ 53) (by positivity) (by norm_num) 4
    positivity
  · intro p hp
    rw [List.mem_singleton] at hp
    subst hp
    right
    have h4 := relErr_nonneg (u := (2 : ℝ)⁻¹ ^ 53) (by positivity) (by norm_num) 4
    have h1 : originDist (⟨1, ![3, 0, 1]⟩ : Pt) ≤ 10 := by
      rw [originDist, Real.sqrt_le_left (by norm_num)]; simp only [Matrix.cons_val]; norm_num
    have h2 : 1 ≤ cylRad (⟨1, ![3, 0, 1]⟩ : Pt) := by
      rw [cylRad]; refine Real.le_sqrt_of_sq_le ?_; simp only [Matrix.cons_val]; norm_num
    calc _ ≤ relErr ((2 : ℝ)⁻¹ ^ 53) 4 * 10 := by gcongr
      _ = relErr ((2 : ℝ)⁻¹ ^ 53) 4 / (1 / 10) * 1 := by ring
      _ ≤ _ := by gcongr

-- coefficients with a run: 1/sqrt 2 is computed to within 2e-12 relative
example : ∃ c, Flt.cgCoeff ieee53 1 1 1 (-1) 2 0 c ∧ (2 : ℤ) = 1 + 1 := ⟨_, (cg_exists ieee53_total 1 1 1 (-1) 2 0).choose_spec, by norm_num⟩

end Newt
