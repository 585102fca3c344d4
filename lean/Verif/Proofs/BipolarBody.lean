import Verif.Proofs.Bipolar

/-! # The energy of two bodies, each expanded about its own centre -/

namespace Newt

open Spec MeasureTheory

theorem bipErr_tendsto {s D : ℝ} (hs : 0 ≤ s) (h : s < D) :
    Filter.Tendsto (fun L => bipErr L s D) Filter.atTop (nhds 0) := by
  have hD : 0 < D := by linarith
  have hr : 0 ≤ s / D := by positivity
  have hr1 : s / D < 1 := by rwa [div_lt_one hD]
  have hlim : Filter.Tendsto (fun L : ℕ => (256 / D) * (((L + 1 : ℕ) : ℝ) ^ 7 * (s / D) ^ (L + 1))) Filter.atTop (nhds 0) := by
    have h1 := tendsto_pow_const_mul_const_pow_of_abs_lt_one 7 (r := s / D) (by rwa [abs_of_nonneg hr])
    have h2 := (h1.comp (Filter.tendsto_add_atTop_nat 1)).const_mul (256 / D)
    rw [mul_zero] at h2
    exact h2
  have hl2 : Filter.Tendsto (fun L : ℕ => ((L : ℝ) + 1) ^ 2 * ((2 * L + 1) ^ 4 * (4 * (4 * L + 1))) * ((s / D) ^ (L + 1) / D))
      Filter.atTop (nhds 0) := by
    refine squeeze_zero (fun L => by positivity) (fun L => ?_) hlim
    have hL : (0 : ℝ) ≤ L := Nat.cast_nonneg L
    have b1 : (2 * (L : ℝ) + 1) ≤ 2 * (L + 1) := by linarith
    have b2 : (4 * (L : ℝ) + 1) ≤ 4 * (L + 1) := by linarith
    calc ((L : ℝ) + 1) ^ 2 * ((2 * L + 1) ^ 4 * (4 * (4 * L + 1))) * ((s / D) ^ (L + 1) / D)
        ≤ ((L : ℝ) + 1) ^ 2 * ((2 * (L + 1)) ^ 4 * (4 * (4 * (L + 1)))) * ((s / D) ^ (L + 1) / D) := by gcongr
      _ = _ := by push_cast; ring
  have h3 := ((remFac_tendsto 0 hs h).add hl2).const_mul (4 * Real.pi)
  rw [add_zero, mul_zero] at h3
  exact h3

theorem bip_integral (mu nu : Measure V3) (hR : ∀ l m, Integrable (Rsol l m) mu) (hR' : ∀ l m, Integrable (Rsol l m) nu)
    (d : V3) (L : ℕ) :
    (∀ x, Integrable (fun y => ∑ l ∈ Finset.range (L + 1), ∑ k ∈ Finset.range (L + 1), bipT d l k x y) nu) ∧
    Integrable (fun x => ∫ y, ∑ l ∈ Finset.range (L + 1), ∑ k ∈ Finset.range (L + 1), bipT d l k x y ∂nu) mu ∧
    ∫ x, ∫ y, ∑ l ∈ Finset.range (L + 1), ∑ k ∈ Finset.range (L + 1), bipT d l k x y ∂nu ∂mu =
      ∑ l ∈ Finset.range (L + 1), ∑ k ∈ Finset.range (L + 1), ∑ m ∈ Finset.Icc (-(l : ℤ)) l,
        ∑ n ∈ Finset.Icc (-(k : ℤ)) k,
          (-1) ^ k * fO (l + k) (m + n) d * ((∫ x, Rsol l m x ∂mu) * (∫ y, Rsol k n y ∂nu)) := by
  have h1 : ∀ l m k n x, Integrable (fun y => (-1) ^ k * fO (l + k) (m + n) d * (Rsol l m x * Rsol k n y)) nu :=
    fun l m k n x => ((hR' k n).const_mul _).const_mul _
  have h0 : ∀ x, Integrable (fun y => ∑ l ∈ Finset.range (L + 1), ∑ k ∈ Finset.range (L + 1), bipT d l k x y) nu := by
    intro x
    unfold bipT
    exact integrable_finset_sum _ fun l _ => integrable_finset_sum _ fun k _ => integrable_finset_sum _ fun m _ =>
      integrable_finset_sum _ fun n _ => h1 l m k n x
  have e : ∀ x, ∫ y, ∑ l ∈ Finset.range (L + 1), ∑ k ∈ Finset.range (L + 1), bipT d l k x y ∂nu =
      ∑ l ∈ Finset.range (L + 1), ∑ k ∈ Finset.range (L + 1), ∑ m ∈ Finset.Icc (-(l : ℤ)) l,
        ∑ n ∈ Finset.Icc (-(k : ℤ)) k,
          (-1) ^ k * fO (l + k) (m + n) d * (Rsol l m x * (∫ y, Rsol k n y ∂nu)) := by
    intro x
    unfold bipT
    rw [integral_finset_sum _ fun l _ => integrable_finset_sum _ fun k _ => integrable_finset_sum _ fun m _ =>
      integrable_finset_sum _ fun n _ => h1 l m k n x]
    refine Finset.sum_congr rfl fun l _ => ?_
    rw [integral_finset_sum _ fun k _ => integrable_finset_sum _ fun m _ =>
      integrable_finset_sum _ fun n _ => h1 l m k n x]
    refine Finset.sum_congr rfl fun k _ => ?_
    rw [integral_finset_sum _ fun m _ => integrable_finset_sum _ fun n _ => h1 l m k n x]
    refine Finset.sum_congr rfl fun m _ => ?_
    rw [integral_finset_sum _ fun n _ => h1 l m k n x]
    refine Finset.sum_congr rfl fun n _ => ?_
    rw [integral_const_mul, integral_const_mul]
  have h2 : ∀ l m k n, Integrable (fun x => (-1) ^ k * fO (l + k) (m + n) d * (Rsol l m x * (∫ y, Rsol k n y ∂nu))) mu :=
    fun l m k n => ((hR l m).mul_const _).const_mul _
  refine ⟨h0, ?_, ?_⟩
  · simp only [e]
    exact integrable_finset_sum _ fun l _ => integrable_finset_sum _ fun k _ => integrable_finset_sum _ fun m _ =>
      integrable_finset_sum _ fun n _ => h2 l m k n
  · simp only [e]
    rw [integral_finset_sum _ fun l _ => integrable_finset_sum _ fun k _ => integrable_finset_sum _ fun m _ =>
      integrable_finset_sum _ fun n _ => h2 l m k n]
    refine Finset.sum_congr rfl fun l _ => ?_
    rw [integral_finset_sum _ fun k _ => integrable_finset_sum _ fun m _ =>
      integrable_finset_sum _ fun n _ => h2 l m k n]
    refine Finset.sum_congr rfl fun k _ => ?_
    rw [integral_finset_sum _ fun m _ => integrable_finset_sum _ fun n _ => h2 l m k n]
    refine Finset.sum_congr rfl fun m _ => ?_
    rw [integral_finset_sum _ fun n _ => h2 l m k n]
    refine Finset.sum_congr rfl fun n _ => ?_
    rw [integral_const_mul, integral_mul_const]

theorem bip_pair (mu nu : Measure V3) [IsFiniteMeasure mu] [IsFiniteMeasure nu]
    (hR : ∀ l m, Integrable (Rsol l m) mu) (hR' : ∀ l m, Integrable (Rsol l m) nu) (d : V3) (L : ℕ) (a c : ℝ)
    (h : a + c < modulus d) (hmu : ∀ᵐ v ∂mu, modulus v ≤ a) (hnu : ∀ᵐ v ∂nu, modulus v ≤ c) :
    ‖((4 * Real.pi : ℝ) : ℂ) * (∑ l ∈ Finset.range (L + 1), ∑ k ∈ Finset.range (L + 1), ∑ m ∈ Finset.Icc (-(l : ℤ)) l,
        ∑ n ∈ Finset.Icc (-(k : ℤ)) k,
          (-1) ^ k * fO (l + k) (m + n) d * ((∫ x, Rsol l m x ∂mu) * (∫ y, Rsol k n y ∂nu)))
      - ((∫ x, ∫ y, 1 / modulus (y + d - x) ∂nu ∂mu : ℝ) : ℂ)‖ ≤
      bipErr L (a + c) (modulus d) * (nu Set.univ).toReal * (mu Set.univ).toReal := by
  obtain ⟨hinner, hK, e1⟩ := bip_integral mu nu hR hR' d L
  have h3 : 0 < modulus d - (a + c) := by linarith
  have hinv : ∀ x y : V3, modulus x ≤ a → modulus y ≤ c →
      ‖((1 / modulus (y + d - x) : ℝ) : ℂ)‖ ≤ 1 / (modulus d - (a + c)) := by
    intro x y hx hy
    have h1 := modulus_add_le (y + d - x) (-y + x)
    rw [show y + d - x + (-y + x) = d by abel] at h1
    have h1' := modulus_add_le (-y) x
    rw [modulus_neg] at h1'
    have h2 : modulus d - (a + c) ≤ modulus (y + d - x) := by linarith
    rw [Complex.norm_real, Real.norm_eq_abs, abs_of_nonneg (by have := modulus_nonneg (y + d - x); positivity)]
    gcongr
  have hmeas : StronglyMeasurable (Function.uncurry fun x y : V3 => ((1 / modulus (y + d - x) : ℝ) : ℂ)) := by
    apply Measurable.stronglyMeasurable
    apply Complex.measurable_ofReal.comp
    apply Measurable.div measurable_const
    exact (modulus_continuous.comp ((continuous_snd.add continuous_const).sub continuous_fst)).measurable
  have hIx : ∀ x, modulus x ≤ a → Integrable (fun y => ((1 / modulus (y + d - x) : ℝ) : ℂ)) nu := by
    intro x hx
    refine Integrable.of_bound (C := 1 / (modulus d - (a + c))) ?_ ?_
    · apply Measurable.aestronglyMeasurable
      apply Complex.measurable_ofReal.comp
      apply Measurable.div measurable_const
      exact (modulus_continuous.comp ((continuous_id.add continuous_const).sub continuous_const)).measurable
    · filter_upwards [hnu] with y hy
      exact hinv x y hx hy
  have hI : Integrable (fun x => ∫ y, ((1 / modulus (y + d - x) : ℝ) : ℂ) ∂nu) mu := by
    refine Integrable.of_bound (C := 1 / (modulus d - (a + c)) * (nu Set.univ).toReal) ?_ ?_
    · exact hmeas.integral_prod_right.aestronglyMeasurable
    · filter_upwards [hmu] with x hx
      refine norm_integral_le_of_norm_le_const ?_
      filter_upwards [hnu] with y hy
      exact hinv x y hx hy
  have e2 : ((∫ x, ∫ y, 1 / modulus (y + d - x) ∂nu ∂mu : ℝ) : ℂ) =
      ∫ x, ∫ y, ((1 / modulus (y + d - x) : ℝ) : ℂ) ∂nu ∂mu := by
    rw [← integral_complex_ofReal]
    congr 1
    funext x
    rw [← integral_complex_ofReal]
  rw [← e1, e2, ← integral_const_mul, ← integral_sub (hK.const_mul _) hI]
  refine norm_integral_le_of_norm_le_const ?_
  filter_upwards [hmu] with x hx
  rw [← integral_const_mul, ← integral_sub ((hinner x).const_mul _) (hIx x hx)]
  refine norm_integral_le_of_norm_le_const ?_
  filter_upwards [hnu] with y hy
  exact bip_error d x y a c hx hy h L

theorem Rsol_of_solidS (mu : Measure V3) (l : ℕ) (m : ℤ) :
    ∫ x, solidS l m x ∂mu = (Nlm l m : ℂ) * ∫ x, Rsol l m x ∂mu := by
  simp only [solidS, integral_const_mul]

theorem pairSum_bip (L : ℕ) (b c : Body) (d : V3) :
    pairSum (Mom.ofFn L b.inner) (Mom.ofFn L (trQ (Mom.ofFn L c.inner) d)) =
      (b.map fun p => (c.map fun q => (p.rho : ℂ) * q.rho *
        ∑ l ∈ Finset.range (L + 1), ∑ k ∈ Finset.range (L + 1), ∑ m ∈ Finset.Icc (-(l : ℤ)) l,
        ∑ n ∈ Finset.Icc (-(k : ℤ)) k,
          (-1) ^ k * fO (l + k) (m + n) d * ((∫ x, Rsol l m x ∂p.mu) * (∫ y, Rsol k n y ∂q.mu))).sum).sum := by
  have e : ∀ l ∈ Finset.range (L + 1), ∀ m ∈ Finset.Icc (-(l : ℤ)) l,
      (Mom.ofFn L b.inner).get l m * (Mom.ofFn L (trQ (Mom.ofFn L c.inner) d)).get l m / (2 * l + 1) =
      ∑ k ∈ Finset.range (L + 1), ∑ n ∈ Finset.Icc (-(k : ℤ)) k, (b.map fun p => (c.map fun q => (p.rho : ℂ) * q.rho *
          ((-1) ^ k * fO (l + k) (m + n) d * ((∫ x, Rsol l m x ∂p.mu) * (∫ y, Rsol k n y ∂q.mu)))).sum).sum := by
    intro l hl m hm
    rw [Finset.mem_range] at hl
    rw [Finset.mem_Icc] at hm
    have h2 : (2 * (l : ℂ) + 1) ≠ 0 := by exact_mod_cast (by positivity : (2 * (l : ℝ) + 1) ≠ 0)
    have hN : (Nlm l m : ℂ) ≠ 0 := by exact_mod_cast (Nlm_pos l m).ne'
    rw [Mom.get_ofFn _ (by omega) (by omega), Mom.get_ofFn _ (by omega) (by omega), trQ, if_pos (by omega),
      Finset.mul_sum, Finset.mul_sum, Finset.sum_div]
    refine Finset.sum_congr rfl fun k hk => ?_
    rw [Finset.mul_sum, Finset.mul_sum, Finset.sum_div]
    refine Finset.sum_congr rfl fun n hn => ?_
    rw [Finset.mem_range] at hk
    rw [Finset.mem_Icc] at hn
    have hN' : (Nlm k n : ℂ) ≠ 0 := by exact_mod_cast (Nlm_pos k n).ne'
    rw [Mom.get_ofFn _ (by omega) (by omega), Body.inner, Body.inner]
    have e1 : ∀ b' : Body, (b'.map fun p => (p.rho : ℂ) * ∫ v, solidS l m v ∂p.mu).sum =
        (Nlm l m : ℂ) * (b'.map fun p => (p.rho : ℂ) * ∫ v, Rsol l m v ∂p.mu).sum := by
      intro b'
      rw [← List.sum_map_mul_left]
      congr 1
      refine List.map_congr_left fun p _ => ?_
      rw [Rsol_of_solidS]; ring
    have e2 : ∀ b' : Body, (b'.map fun p => (p.rho : ℂ) * ∫ v, solidS k n v ∂p.mu).sum =
        (Nlm k n : ℂ) * (b'.map fun p => (p.rho : ℂ) * ∫ v, Rsol k n v ∂p.mu).sum := by
      intro b'
      rw [← List.sum_map_mul_left]
      congr 1
      refine List.map_congr_left fun p _ => ?_
      rw [Rsol_of_solidS]; ring
    rw [e1, e2]
    calc _ = ((-1) ^ k * fO (l + k) (m + n) d) * ((b.map fun p => (p.rho : ℂ) * ∫ v, Rsol l m v ∂p.mu).sum *
          (c.map fun p => (p.rho : ℂ) * ∫ v, Rsol k n v ∂p.mu).sum) := by field_simp
      _ = _ := by
        rw [list_sum_mul_list_sum, ← List.sum_map_mul_left]
        congr 1
        refine List.map_congr_left fun p _ => ?_
        rw [← List.sum_map_mul_left]
        congr 1
        refine List.map_congr_left fun q _ => ?_
        ring
  rw [pairSum, Finset.sum_congr rfl fun l hl => Finset.sum_congr rfl (e l hl)]
  have e3 : ∀ l ∈ Finset.range (L + 1), (∑ m ∈ Finset.Icc (-(l : ℤ)) l, ∑ k ∈ Finset.range (L + 1),
      ∑ n ∈ Finset.Icc (-(k : ℤ)) k, (b.map fun p => (c.map fun q => (p.rho : ℂ) * q.rho *
          ((-1) ^ k * fO (l + k) (m + n) d * ((∫ x, Rsol l m x ∂p.mu) * (∫ y, Rsol k n y ∂q.mu)))).sum).sum) =
      ∑ k ∈ Finset.range (L + 1), ∑ m ∈ Finset.Icc (-(l : ℤ)) l,
      ∑ n ∈ Finset.Icc (-(k : ℤ)) k, (b.map fun p => (c.map fun q => (p.rho : ℂ) * q.rho *
          ((-1) ^ k * fO (l + k) (m + n) d * ((∫ x, Rsol l m x ∂p.mu) * (∫ y, Rsol k n y ∂q.mu)))).sum).sum :=
    fun l _ => Finset.sum_comm
  rw [Finset.sum_congr rfl e3]
  simp only [finset_sum_list, Finset.mul_sum]

theorem energy_translate (G : ℝ) (b c : Body) (d : V3) :
    b.energy G (c.translate d) = (b.map fun p => (c.map fun q => -(G * p.rho * q.rho) *
      ∫ x, ∫ y, 1 / modulus (y + d - x) ∂q.mu ∂p.mu).sum).sum := by
  unfold Body.energy Body.translate
  congr 1
  refine List.map_congr_left fun p _ => ?_
  rw [List.map_map]
  congr 1
  refine List.map_congr_left fun q _ => ?_
  simp only [Function.comp_apply]
  change -(G * p.rho * q.rho) * _ = _
  congr 2
  funext x
  change ∫ y, 1 / modulus (y - x) ∂(q.mu.map fun v => v + d) = _
  rw [integral_map (φ := fun v : V3 => v + d) (continuous_id.add continuous_const).measurable.aemeasurable]
  apply Measurable.aestronglyMeasurable
  apply Measurable.div measurable_const
  exact (modulus_continuous.comp (continuous_id.sub continuous_const)).measurable

theorem bip_body_error (L : ℕ) (G : ℝ) (b c : Body) (d : V3) (a r : ℝ) (h : a + r < modulus d) (hb : b.InBall a)
    (hc : c.InBall r) :
    ‖multipoleEnergy G (Mom.ofFn L b.inner) (Mom.ofFn L (trQ (Mom.ofFn L c.inner) d)) -
      (b.energy G (c.translate d) : ℂ)‖ ≤ |G| * b.absMass * c.absMass * bipErr L (a + r) (modulus d) := by
  rw [multipoleEnergy, pairSum_bip, energy_translate, ofReal_list_sum, List.map_map,
    ← List.sum_map_mul_left, list_sum_sub]
  refine (list_norm_sum_le b _ (fun p => |G| * c.absMass * bipErr L (a + r) (modulus d) *
    (|p.rho| * (p.mu Set.univ).toReal)) ?_).trans (le_of_eq ?_)
  · intro p hp
    rw [Function.comp, ofReal_list_sum, List.map_map, ← List.sum_map_mul_left, list_sum_sub]
    refine (list_norm_sum_le c _ (fun q => |G| * bipErr L (a + r) (modulus d) * (|p.rho| * (p.mu Set.univ).toReal)
      * (|q.rho| * (q.mu Set.univ).toReal)) ?_).trans (le_of_eq ?_)
    · intro q hq
      have := p.fin
      have := q.fin
      have key := bip_pair p.mu q.mu (fun l m => p.integrable (continuous_Rsol' l m))
        (fun l m => q.integrable (continuous_Rsol' l m)) d L a r h (InBall.ae hb p hp) (InBall.ae hc q hq)
      rw [Function.comp]
      set S := ∑ l ∈ Finset.range (L + 1), ∑ k ∈ Finset.range (L + 1), ∑ m ∈ Finset.Icc (-(l : ℤ)) l,
        ∑ n ∈ Finset.Icc (-(k : ℤ)) k,
          (-1) ^ k * fO (l + k) (m + n) d * ((∫ x, Rsol l m x ∂p.mu) * (∫ y, Rsol k n y ∂q.mu))
      set T := ∫ x, ∫ y, 1 / modulus (y + d - x) ∂q.mu ∂p.mu
      have e : ((-4 * Real.pi * G : ℝ) : ℂ) * ((p.rho : ℂ) * q.rho * S) - ((-(G * p.rho * q.rho) * T : ℝ) : ℂ)
          = ((-(G * p.rho * q.rho) : ℝ) : ℂ) * (((4 * Real.pi : ℝ) : ℂ) * S - (T : ℂ)) := by
        push_cast; ring
      rw [e, norm_mul, Complex.norm_real, Real.norm_eq_abs, abs_neg, abs_mul, abs_mul]
      calc |G| * |p.rho| * |q.rho| * ‖((4 * Real.pi : ℝ) : ℂ) * S - (T : ℂ)‖
          ≤ |G| * |p.rho| * |q.rho| * (bipErr L (a + r) (modulus d) * (q.mu Set.univ).toReal * (p.mu Set.univ).toReal) := by
            gcongr
        _ = _ := by ring
    · rw [List.sum_map_mul_left, Body.absMass]; ring
  · rw [List.sum_map_mul_left, Body.absMass, Body.absMass]; ring

end Newt
