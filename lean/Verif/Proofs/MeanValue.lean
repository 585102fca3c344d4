import Verif.Proofs.Body
import Verif.Proofs.QlmBall
import Verif.Proofs.MpcShapes
import Verif.Props.ForceConv

/-!
# Functions with the mean value property: a bound on the derivative

The moments of a translated body are harmonic polynomials of the displacement.  A function with the mean value property
that is small near a point has a small derivative there.
-/

namespace Newt

open Spec MeasureTheory

/-- A continuous function that equals its averages over balls. -/
structure MeanVal (f : V3 → ℂ) : Prop where
  cont : Continuous f
  mean : ∀ (w : V3) (r : ℝ), 0 < r → ∫ u in ball r, f (w + u) = ((volume (ball r)).toReal : ℂ) * f w

theorem MeanVal.const_mul {f : V3 → ℂ} (hf : MeanVal f) (c : ℂ) : MeanVal fun v => c * f v :=
  ⟨continuous_const.mul hf.cont, fun w r hr => by rw [integral_const_mul, hf.mean w r hr]; ring⟩

theorem MeanVal.intOn {f : V3 → ℂ} (hf : Continuous f) (w : V3) (r : ℝ) : IntegrableOn (fun u => f (w + u)) (ball r) volume :=
  (hf.comp (continuous_const.add continuous_id)).continuousOn.integrableOn_compact (ball_compact r)

theorem MeanVal.sum {ι : Type*} (s : Finset ι) {f : ι → V3 → ℂ} (hf : ∀ i ∈ s, MeanVal (f i)) : MeanVal fun v => ∑ i ∈ s, f i v :=
  ⟨continuous_finset_sum _ fun i hi => (hf i hi).cont, fun w r hr => by
    rw [integral_finset_sum _ fun i hi => MeanVal.intOn (hf i hi).cont w r, Finset.mul_sum]
    exact Finset.sum_congr rfl fun i hi => (hf i hi).mean w r hr⟩

theorem MeanVal.sub {f g : V3 → ℂ} (hf : MeanVal f) (hg : MeanVal g) : MeanVal fun v => f v - g v :=
  ⟨hf.cont.sub hg.cont, fun w r hr => by
    rw [integral_sub (MeanVal.intOn hf.cont w r) (MeanVal.intOn hg.cont w r), hf.mean w r hr, hg.mean w r hr]; ring⟩

theorem translate_translate (b : Body) (w u : V3) : (b.translate w).translate u = b.translate (w + u) := by
  rw [Body.translate, Body.translate, Body.translate, List.map_map]
  refine List.map_congr_left fun p _ => ?_
  simp only [Function.comp, Piece.move, Piece.mk.injEq, true_and]
  rw [Measure.map_map (by fun_prop) (by fun_prop)]
  congr 1
  funext v
  simp [add_assoc]

theorem int_Rsol_ball (j : ℕ) (n : ℤ) (hj : 0 < j) (r : ℝ) : ∫ u in ball r, Rsol j n u = 0 := by
  by_cases hn : n.natAbs ≤ j
  · have hN : (Nlm j n : ℂ) ≠ 0 := by
      have : 0 < Nlm j n := by
        rw [Nlm]; apply Real.sqrt_pos.2
        have := Real.pi_pos
        have h1 : 0 < (((j : ℤ) + n).toNat.factorial : ℝ) := by exact_mod_cast Nat.factorial_pos _
        have h2 : 0 < (((j : ℤ) - n).toNat.factorial : ℝ) := by exact_mod_cast Nat.factorial_pos _
        positivity
      exact_mod_cast this.ne'
    have h : ∫ u in ball r, solidS j n u = 0 := by
      by_cases h0 : n = 0
      · subst h0; exact ball_zero r j hj
      · exact ball_m r j n h0
    simp only [solidS] at h
    rw [integral_const_mul] at h
    exact (mul_eq_zero.1 h).resolve_left hN
  · simp [Rsol_out j n _ (by rw [Int.abs_eq_natAbs]; omega)]

theorem continuous_Rsol'' (j : ℕ) (n : ℤ) : Continuous (Rsol j n) := by
  by_cases hn : n.natAbs ≤ j
  · have hN : (Nlm j n : ℂ) ≠ 0 := by
      have : 0 < Nlm j n := by
        rw [Nlm]; apply Real.sqrt_pos.2
        have := Real.pi_pos
        have h1 : 0 < (((j : ℤ) + n).toNat.factorial : ℝ) := by exact_mod_cast Nat.factorial_pos _
        have h2 : 0 < (((j : ℤ) - n).toNat.factorial : ℝ) := by exact_mod_cast Nat.factorial_pos _
        positivity
      exact_mod_cast this.ne'
    have : Rsol j n = fun v => (Nlm j n : ℂ)⁻¹ * solidS j n v := by
      funext v; rw [solidS, ← mul_assoc, inv_mul_cancel₀ hN, one_mul]
    rw [this]
    exact continuous_const.mul (continuous_solidS j n)
  · have : Rsol j n = fun _ => 0 := by
      funext v; exact Rsol_out j n _ (by rw [Int.abs_eq_natAbs]; omega)
    rw [this]; exact continuous_const

/-- The moments of a translated body have the mean value property. -/
theorem MeanVal.inner (b : Body) (l : ℕ) (m : ℤ) (hm : m.natAbs ≤ l) : MeanVal fun v => (b.translate v).inner l m := by
  constructor
  · simp only [Body.inner_translate]
    refine continuous_const.mul (continuous_finset_sum _ fun k _ => continuous_finset_sum _ fun n _ => ?_)
    exact (continuous_Rsol'' _ _).mul continuous_const
  · intro w r hr
    set c := b.translate w with hc
    have e : ∀ u, (b.translate (w + u)).inner l m = (Nlm l m : ℂ) * ∑ k ∈ Finset.range (l + 1), ∑ n ∈ Finset.Icc (-(k : ℤ)) k,
        Rsol (l - k) (m - n) u * (c.inner k n / (Nlm k n : ℂ)) := by
      intro u
      rw [← translate_translate, Body.inner_translate]
    have hN : (Nlm l m : ℂ) ≠ 0 := by
      have : 0 < Nlm l m := by
        rw [Nlm]; apply Real.sqrt_pos.2
        have := Real.pi_pos
        have h1 : 0 < (((l : ℤ) + m).toNat.factorial : ℝ) := by exact_mod_cast Nat.factorial_pos _
        have h2 : 0 < (((l : ℤ) - m).toNat.factorial : ℝ) := by exact_mod_cast Nat.factorial_pos _
        positivity
      exact_mod_cast this.ne'
    simp only [e]
    have hi : ∀ j n, IntegrableOn (Rsol j n) (ball r) volume := fun j n =>
      (continuous_Rsol'' j n).continuousOn.integrableOn_compact (ball_compact r)
    rw [integral_const_mul, integral_finset_sum _ fun k _ => integrable_finset_sum _ fun n _ => (hi _ _).mul_const _]
    have hk : ∀ k ∈ Finset.range (l + 1), ∫ u in ball r, ∑ n ∈ Finset.Icc (-(k : ℤ)) k,
        Rsol (l - k) (m - n) u * (c.inner k n / (Nlm k n : ℂ)) =
        if k = l then ((volume (ball r)).toReal : ℂ) * (c.inner l m / (Nlm l m : ℂ)) else 0 := by
      intro k hk
      rw [integral_finset_sum _ fun n _ => (hi _ _).mul_const _]
      simp only [integral_mul_const]
      split_ifs with h
      · subst h
        rw [Finset.sum_eq_single m]
        · rw [Nat.sub_self, sub_self]
          simp only [Rsol_zero_zero, integral_const, smul_eq_mul, mul_one]
          simp [Measure.real]
        · intro n _ hne
          rw [Nat.sub_self]
          simp [Rsol_out 0 (m - n) _ (by simp; omega)]
        · intro h; exact absurd (Finset.mem_Icc.2 (by omega)) h
      · refine Finset.sum_eq_zero fun n _ => ?_
        rw [int_Rsol_ball _ _ (by rw [Finset.mem_range] at hk; omega), zero_mul]
    rw [Finset.sum_congr rfl hk, Finset.sum_ite_eq' , if_pos (by simp)]
    field_simp

/-- A ball about a point. -/
def ballAt (w : V3) (r : ℝ) : Set V3 := {x | modulus (x - w) ≤ r}

theorem ballAt_closed (w : V3) (r : ℝ) : IsClosed (ballAt w r) :=
  isClosed_le (modulus_continuous.comp (continuous_id.sub continuous_const)) continuous_const

theorem ballAt_pre (w : V3) (r : ℝ) : (fun u => w + u) ⁻¹' ballAt w r = ball r := by
  ext u; simp [ballAt, ball]

theorem ballAt_vol (w : V3) (r : ℝ) : volume (ballAt w r) = volume (ball r) := by
  rw [← ballAt_pre w r, (measurePreserving_add_left volume w).measure_preimage (ballAt_closed w r).measurableSet.nullMeasurableSet]

theorem ballAt_int (w : V3) (r : ℝ) (f : V3 → ℂ) : ∫ u in ball r, f (w + u) = ∫ x in ballAt w r, f x := by
  rw [← ballAt_pre w r]
  exact (measurePreserving_add_left volume w).setIntegral_preimage_emb (measurableEmbedding_addLeft w) f _

theorem ballAt_int_diff (w w' : V3) (r s : ℝ) (hr : 0 < r) (hs : 0 ≤ s) (hd : modulus (w' - w) ≤ s) (f : V3 → ℂ) (eps : ℝ)
    (heps : ∀ x ∈ ballAt w (r + s), ‖f x‖ ≤ eps) :
    ‖∫ x in ballAt w' r \ ballAt w r, f x‖ ≤ eps * (4 / 3 * Real.pi * (r + s) ^ 3 - 4 / 3 * Real.pi * r ^ 3) := by
  have hsub : ballAt w' r \ ballAt w r ⊆ ballAt w (r + s) \ ballAt w r := by
    rintro x ⟨hx, hx'⟩
    refine ⟨?_, hx'⟩
    have h1 := modulus_add_le (x - w') (w' - w)
    rw [sub_add_sub_cancel] at h1
    exact h1.trans (add_le_add hx hd)
  have hle : ballAt w r ⊆ ballAt w (r + s) := fun x hx => le_trans (show modulus (x - w) ≤ r from hx) (by linarith)
  have hfin : ∀ r, volume (ballAt w r) ≠ ⊤ := fun r => by rw [ballAt_vol]; exact (ball_compact r).measure_ne_top
  have heps0 : 0 ≤ eps := le_trans (norm_nonneg (f w)) (heps w (by simp [ballAt, modulus]; linarith))
  have hv : (volume (ballAt w (r + s) \ ballAt w r)).toReal = 4 / 3 * Real.pi * (r + s) ^ 3 - 4 / 3 * Real.pi * r ^ 3 := by
    rw [measure_sdiff hle (ballAt_closed w r).measurableSet.nullMeasurableSet (hfin r), ENNReal.toReal_sub_of_le (measure_mono hle) (hfin _),
      ballAt_vol, ballAt_vol, ball_volume _ (by linarith), ball_volume _ hr.le]
  have h1 : volume (ballAt w' r \ ballAt w r) < ⊤ := lt_of_le_of_lt (measure_mono (hsub.trans Set.sdiff_subset)) (hfin _).lt_top
  refine (norm_setIntegral_le_of_norm_le_const h1 (fun x hx => heps x (hsub hx).1)).trans ?_
  refine mul_le_mul_of_nonneg_left ?_ heps0
  rw [← hv]
  exact ENNReal.toReal_mono (ne_top_of_le_ne_top (hfin _) (measure_mono Set.sdiff_subset)) (measure_mono hsub)

/-- A function with the mean value property is Lipschitz at a point with a constant controlled by its size nearby. -/
theorem MeanVal.lip {f : V3 → ℂ} (hf : MeanVal f) (w w' : V3) (r eps : ℝ) (hr : 0 < r) (hd : modulus (w' - w) ≤ r)
    (heps : ∀ x, modulus (x - w) ≤ 3 * r → ‖f x‖ ≤ eps) : ‖f w' - f w‖ ≤ 14 * eps / r * modulus (w' - w) := by
  set s := modulus (w' - w) with hs
  have hs0 : 0 ≤ s := modulus_nonneg _
  have hcomm : modulus (w - w') = s := by rw [hs, ← modulus_neg, neg_sub]
  have heps0 : 0 ≤ eps := le_trans (norm_nonneg (f w)) (heps w (by simp [modulus]; linarith))
  have a1 := ballAt_int_diff w w' r s hr hs0 le_rfl f eps fun x hx => heps x (le_trans hx (by linarith))
  have a2 := ballAt_int_diff w' w r s hr hs0 hcomm.le f eps fun x hx => heps x (by
    have h1 := modulus_add_le (x - w') (w' - w)
    rw [sub_add_sub_cancel] at h1
    have h2 : modulus (x - w') ≤ r + s := hx
    linarith)
  have hint : ∀ w, IntegrableOn f (ballAt w r) volume := by
    intro w
    have hcpt : IsCompact (ballAt w r) := by
      have : ballAt w r = (fun u => w + u) '' ball r := by
        rw [← ballAt_pre w r, Set.image_preimage_eq]
        exact fun x => ⟨x - w, by simp⟩
      rw [this]
      exact (ball_compact r).image (by fun_prop)
    exact hf.cont.continuousOn.integrableOn_compact hcpt
  have e1 := integral_inter_add_diff (ballAt_closed w r).measurableSet (hint w')
  have e2 := integral_inter_add_diff (ballAt_closed w' r).measurableSet (hint w)
  have m1 := hf.mean w' r hr
  have m2 := hf.mean w r hr
  rw [ballAt_int, ball_volume r hr.le] at m1 m2
  rw [Set.inter_comm] at e2
  have hV : 0 < 4 / 3 * Real.pi * r ^ 3 := by have := Real.pi_pos; positivity
  have key : ((4 / 3 * Real.pi * r ^ 3 : ℝ) : ℂ) * (f w' - f w) =
      (∫ x in ballAt w' r \ ballAt w r, f x) - ∫ x in ballAt w r \ ballAt w' r, f x := by
    rw [mul_sub, ← m1, ← m2, ← e1, ← e2]; ring
  have h3 := norm_sub_le (∫ x in ballAt w' r \ ballAt w r, f x) (∫ x in ballAt w r \ ballAt w' r, f x)
  rw [← key, norm_mul, Complex.norm_real, Real.norm_of_nonneg hV.le] at h3
  have hcube : (r + s) ^ 3 - r ^ 3 ≤ 7 * r ^ 2 * s := by nlinarith [mul_nonneg hs0 hs0, mul_nonneg hr.le hs0, mul_nonneg (mul_nonneg hs0 hs0) hr.le, mul_le_mul hd hd hs0 hr.le]
  have hfin : 4 / 3 * Real.pi * r ^ 3 * ‖f w' - f w‖ ≤ 4 / 3 * Real.pi * r ^ 3 * (14 * eps / r * s) := by
    have h4 : eps * (4 / 3 * Real.pi * (r + s) ^ 3 - 4 / 3 * Real.pi * r ^ 3) ≤ eps * (4 / 3 * Real.pi * (7 * r ^ 2 * s)) := by
      apply mul_le_mul_of_nonneg_left _ heps0
      have := Real.pi_pos
      have : 4 / 3 * Real.pi * ((r + s) ^ 3 - r ^ 3) ≤ 4 / 3 * Real.pi * (7 * r ^ 2 * s) := mul_le_mul_of_nonneg_left hcube (by positivity)
      linarith
    have h5 : 4 / 3 * Real.pi * r ^ 3 * (14 * eps / r * s) = 2 * (eps * (4 / 3 * Real.pi * (7 * r ^ 2 * s))) := by
      field_simp; ring
    linarith
  exact le_of_mul_le_mul_left hfin hV

/-- A bound on the derivative along a coordinate. -/
theorem MeanVal.deriv_le {f : V3 → ℂ} (hf : MeanVal f) (v : V3) (i : Fin 3) (r eps : ℝ) (hr : 0 < r)
    (heps : ∀ x, modulus (x - v) ≤ 3 * r → ‖f x‖ ≤ eps) (D : ℂ)
    (hD : HasDerivAt (fun t => f (Function.update v i t)) D (v i)) : ‖D‖ ≤ 14 * eps / r := by
  have heps0 : 0 ≤ eps := le_trans (norm_nonneg (f v)) (heps v (by simp [modulus]; linarith))
  refine hD.le_of_lip' (by positivity) ?_
  have hmod : ∀ t, modulus (Function.update v i t - v) = |t - v i| := by
    intro t
    have : Function.update v i t - v = (t - v i) • (Pi.single i 1 : V3) := by
      funext j
      by_cases hj : j = i
      · subst hj; simp
      · simp [Function.update_of_ne hj, Pi.single_eq_of_ne hj]
    rw [this, modulus_smul]
    have h1 : modulus (Pi.single i 1 : V3) = 1 := by fin_cases i <;> simp [modulus]
    rw [h1, mul_one]
  filter_upwards [Metric.ball_mem_nhds (v i) hr] with t ht
  rw [Metric.mem_ball, Real.dist_eq] at ht
  have h1 := hf.lip v (Function.update v i t) r eps hr (by rw [hmod]; exact ht.le) heps
  rw [hmod] at h1
  simpa [Real.norm_eq_abs] using h1

end Newt
