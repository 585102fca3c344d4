import Verif.Proofs.QlmShapes

/-! # Cylinder and the (R, phih) form of the isosceles prism -/

namespace Newt

open MeasureTheory Finset Spec Qlm

theorem disc_sector (R : ℝ) (hR : 0 ≤ R) : disc R = sector 0 R 0 Real.pi := by
  ext ⟨x, y⟩
  constructor
  · intro h
    have h' : x ^ 2 + y ^ 2 ≤ R ^ 2 := h
    have hn : ‖(⟨x, y⟩ : ℂ)‖ = Real.sqrt (x ^ 2 + y ^ 2) := by
      rw [Complex.norm_def, Complex.normSq_apply]; congr 1; ring
    refine ⟨‖(⟨x, y⟩ : ℂ)‖, Complex.arg ⟨x, y⟩, norm_nonneg _, ?_, ?_, ?_, ?_, ?_⟩
    · rw [hn]; exact Real.sqrt_le_iff.2 ⟨hR, h'⟩
    · linarith [Complex.neg_pi_lt_arg (⟨x, y⟩ : ℂ)]
    · linarith [Complex.arg_le_pi (⟨x, y⟩ : ℂ)]
    · rw [Complex.norm_mul_cos_arg]
    · rw [Complex.norm_mul_sin_arg]
  · rintro ⟨r, phi, h1, h2, _, _, h5, h6⟩
    simp only at h5 h6
    change x ^ 2 + y ^ 2 ≤ R ^ 2
    rw [h5, h6]
    have : (r * Real.cos phi) ^ 2 + (r * Real.sin phi) ^ 2 = r ^ 2 := by
      linear_combination r ^ 2 * Real.sin_sq_add_cos_sq phi
    rw [this]; gcongr

theorem pm_disc (R : ℝ) (hR : 0 ≤ R) (m k : ℕ) :
    pm (disc R) m k = if m = 0 then ((2 * Real.pi * R ^ (2 * k + 2) / (2 * k + 2) : ℝ) : ℂ) else 0 := by
  rw [disc_sector R hR, pm_sector 0 R 0 Real.pi le_rfl hR Real.pi_pos.le le_rfl]
  split_ifs with h
  · subst h
    simp [sinc, phase]; ring
  · have : sinc (m * Real.pi) = 0 := by
      rw [sinc, if_neg (by have := Real.pi_pos; positivity), Real.sin_nat_mul_pi, zero_div]
    rw [this]; simp

theorem slk0_eq (H : ℝ) (n : ℕ) : slk0 H n = (H / 2) ^ (2 * n) / (2 * n + 1) := by
  induction n with
  | zero => simp [slk0]
  | succ n ih =>
    rw [slk0, ih]
    have h1 : (2 * (n : ℝ) + 1) ≠ 0 := by positivity
    have h2 : (2 * ((n : ℝ) + 1) + 1) ≠ 0 := by positivity
    rw [show 2 * (n + 1) = 2 * n + 2 by ring, pow_add]
    push_cast
    field_simp
    ring

theorem slk_eq (H R : ℝ) (hH : 0 < H) (n k : ℕ) (hk : k ≤ n) :
    slk H R n k = (-1) ^ k * H ^ (2 * n - 2 * k) * R ^ (2 * k) * (2 * n).factorial
      / (2 ^ (2 * n) * k.factorial * (k + 1).factorial * (2 * n - 2 * k + 1).factorial) := by
  induction k with
  | zero =>
    rw [slk, slk0_eq]
    have h1 : (2 * (n : ℝ) + 1) ≠ 0 := by positivity
    have hf : ((2 * n).factorial : ℝ) ≠ 0 := by exact_mod_cast (2 * n).factorial_ne_zero
    have hfs : (2 * n + 1).factorial = (2 * n + 1) * (2 * n).factorial := Nat.factorial_succ _
    simp only [Nat.mul_zero, Nat.sub_zero, hfs, div_pow]
    push_cast [Nat.factorial]
    field_simp
  | succ k ih =>
    rw [slk, ih (by omega)]
    obtain ⟨e, he⟩ : ∃ e, 2 * n = 2 * (k + 1) + e := ⟨2 * n - 2 * (k + 1), by omega⟩
    have hnr : ((2 * n : ℕ) : ℝ) = 2 * ((k : ℝ) + 1) + e := by rw [he]; push_cast; ring
    rw [hnr]
    generalize hg : (2 * n).factorial = F
    generalize hg2 : (2 : ℝ) ^ (2 * n) = T
    have hT : T ≠ 0 := by rw [← hg2]; positivity
    have e1 : 2 * n - 2 * k = e + 2 := by omega
    have e2 : 2 * n - 2 * (k + 1) = e := by omega
    have hfs : (e + 2 + 1).factorial = (e + 3) * ((e + 2) * (e + 1).factorial) := by
      rw [Nat.factorial_succ (e + 2), Nat.factorial_succ (e + 1)]
    have hks : (k + 1 + 1).factorial = (k + 2) * (k + 1).factorial := Nat.factorial_succ _
    have hks2 : (k + 1).factorial = (k + 1) * k.factorial := Nat.factorial_succ _
    rw [e1, e2, hfs, hks, hks2]
    have f1 : (k.factorial : ℝ) ≠ 0 := by exact_mod_cast k.factorial_ne_zero
    have f2 : ((e + 1).factorial : ℝ) ≠ 0 := by exact_mod_cast (e + 1).factorial_ne_zero
    have h1 : (k : ℝ) + 1 ≠ 0 := by positivity
    have h2 : (k : ℝ) + 2 ≠ 0 := by positivity
    have h2' : (k : ℝ) + 1 + 1 ≠ 0 := by positivity
    have h3 : (e : ℝ) + 2 ≠ 0 := by positivity
    have h4 : (e : ℝ) + 3 ≠ 0 := by positivity
    rw [show 2 * (k + 1) = 2 * k + 2 by ring, pow_add R, pow_add H, pow_succ (-1 : ℝ)]
    push_cast
    field_simp
    ring

theorem disc_compact (R : ℝ) (hR : 0 ≤ R) : IsCompact (disc R) := by
  rw [disc_sector R hR]; exact sector_compact _ _ _ _

theorem cylinder_eq (L : ℕ) (mass H R : ℝ) (hH : 0 < H) (hR : 0 < R) :
    cylinder L mass H R = .ok (Mom.ofFn L (uniformMoment mass (prism H (disc R)))) := by
  rw [cylinder, if_neg (by push Not; exact ⟨hH, hR⟩)]
  congr 1
  apply Mom.ext_get
  intro l m hl hm
  rw [Mom.get_ofFn _ hl hm, Mom.get_ofFn _ hl hm]
  have hv : pm (disc R) 0 0 ≠ 0 := by
    rw [pm_disc R hR.le, if_pos rfl]
    have := Real.pi_pos
    exact_mod_cast (by positivity : (2 * Real.pi * R ^ (2 * 0 + 2) / (2 * (0 : ℝ) + 2) : ℝ) ≠ 0)
  by_cases h0 : m = 0
  · subst h0
    have hu := uniform_prism mass H hH (disc R) (disc_compact R hR.le) l 0 (Nat.zero_le _)
    rw [Nat.cast_zero] at hu
    rw [hu]
    by_cases hl2 : l % 2 = 0
    · have key : ((factor mass * Real.sqrt (2 * l + 1) *
          ∑ k ∈ range (L / 2 + 1), (if k ≤ l / 2 then slk H R (l / 2) k else 0) : ℝ) : ℂ)
          = (∑ k ∈ range ((l - 0) / 2 + 1),
          (((-1) ^ (k + 0) * H ^ (l - 2 * k - 0) / ((2 : ℝ) ^ l * gam3 l 0 k) : ℝ) : ℂ)
            * (pm (disc R) 0 k / pm (disc R) 0 0))
        * ((factor mass * Real.sqrt (2 * l + 1) * lmfac l 0 : ℝ) : ℂ) := by
        have hs : ∑ k ∈ range (L / 2 + 1), (if k ≤ l / 2 then slk H R (l / 2) k else 0)
            = ∑ k ∈ range (l / 2 + 1), slk H R (l / 2) k := by
          symm
          apply sum_subset_zero_on_sdiff
          · intro x hx; simp only [mem_range] at hx ⊢; omega
          · intro x hx; simp only [mem_sdiff, mem_range] at hx; rw [if_neg (by omega)]
          · intro x hx; simp only [mem_range] at hx; rw [if_pos (by omega)]
        rw [hs, Nat.sub_zero, sum_mul]
        push_cast
        rw [mul_sum]
        refine sum_congr rfl fun k hk => ?_
        simp only [mem_range] at hk
        obtain ⟨n, rfl⟩ : ∃ n, l = 2 * n := ⟨l / 2, by omega⟩
        have hn : 2 * n / 2 = n := by omega
        rw [hn] at hk
        rw [hn, slk_eq H R hH n k (by omega), pm_disc R hR.le, pm_disc R hR.le, if_pos rfl, if_pos rfl,
          gam3_eq _ _ _ (by omega), lmfac_eq _ _ (Nat.zero_le _)]
        have hR' : (R : ℂ) ≠ 0 := by exact_mod_cast hR.ne'
        have hp : (Real.pi : ℂ) ≠ 0 := by exact_mod_cast Real.pi_ne_zero
        have hsq : Real.sqrt (((2 * n + 0).factorial : ℝ) * ((2 * n - 0).factorial : ℝ)) = (2 * n).factorial :=
          Real.sqrt_mul_self (by positivity)
        rw [hsq]
        have hks2 : (k + 1).factorial = (k + 1) * k.factorial := Nat.factorial_succ _
        have hf : ∀ n : ℕ, ((n.factorial : ℕ) : ℂ) ≠ 0 := fun n => by exact_mod_cast n.factorial_ne_zero
        have f1 := hf k; have f2 := hf (2 * n - 2 * k + 1)
        have h1 : (k : ℂ) + 1 ≠ 0 := by exact_mod_cast k.succ_ne_zero
        have h1' : 2 * (k : ℂ) + 2 ≠ 0 := by exact_mod_cast (by omega : 2 * k + 2 ≠ 0)
        rw [hks2]
        simp only [Nat.zero_add, Nat.add_zero, Nat.sub_zero]
        rw [pow_add R]
        push_cast
        field_simp
        ring
      by_cases hl0 : l = 0
      · subst hl0
        rw [if_pos ⟨rfl, rfl⟩, if_pos (by simp), ← key]
        have hs : ∑ k ∈ range (L / 2 + 1), (if k ≤ 0 / 2 then slk H R (0 / 2) k else 0) = 1 := by
          rw [sum_eq_single 0]
          · simp [slk, slk0]
          · intro b _ hb; rw [if_neg (by omega)]
          · intro h; exact absurd (mem_range.2 (by omega)) h
        rw [hs]; simp
      · rw [if_neg (by omega), if_pos ⟨rfl, hl2⟩, if_pos (by simpa using hl2), ← key]
    · rw [if_neg (by omega), if_neg (by omega), if_neg (by simpa using hl2)]
  · rw [if_neg (by tauto), if_neg (by tauto)]
    have key : ∀ n : ℕ, n ≠ 0 → uniformMoment mass (prism H (disc R)) l n = 0 := by
      intro n hn
      by_cases hnl : n ≤ l
      · rw [uniform_prism mass H hH _ (disc_compact R hR.le) l n hnl]
        split_ifs with hp
        · rw [sum_eq_zero, zero_mul]
          intro k _
          rw [pm_disc R hR.le n, if_neg hn]; simp
        · rfl
      · exact uniformMoment_out _ _ _ _ (by omega)
    rcases Int.eq_nat_or_neg m with ⟨n, rfl | rfl⟩
    · rw [key n (by omega)]
    · rw [uniformMoment_neg, key n (by omega)]; simp

theorem iso2_cell (mass H R phic phih : ℝ) (hH : 0 < H) (hR : 0 < R) (h0 : 0 < phih)
    (h2 : phih < Real.pi / 2) (l m : ℕ) (hm : m ≤ l) :
    isoCell mass H (R * Real.cos phih) (Real.tan phih) phic l m
      = uniformMoment mass (prism H (triangle (R * Real.cos (phic - phih), R * Real.sin (phic - phih))
          (R * Real.cos (phic + phih), R * Real.sin (phic + phih)))) l m := by
  have hc : 0 < Real.cos phih := Real.cos_pos_of_mem_Ioo ⟨by linarith, h2⟩
  have hs : 0 < Real.sin phih := Real.sin_pos_of_pos_of_lt_pi h0 (by linarith [Real.pi_pos])
  have ht : Real.tan phih = (2 * R * Real.sin phih) / (2 * (R * Real.cos phih)) := by
    rw [Real.tan_eq_sin_div_cos]; field_simp
  rw [ht, iso_cell mass H (2 * R * Real.sin phih) (R * Real.cos phih) phic hH (by positivity) (by positivity) l m hm]
  congr 2
  ext p
  simp only [rotated, triangle, Set.mem_setOf_eq, Real.cos_sub, Real.sin_sub, Real.cos_add, Real.sin_add]
  constructor
  · rintro ⟨b, ⟨s, t, h1, h2, h3, h4, h5⟩, h6, h7⟩
    refine ⟨s, t, h1, h2, h3, ?_, ?_⟩
    · rw [h6, h4, h5]; ring
    · rw [h7, h4, h5]; ring
  · rintro ⟨s, t, h1, h2, h3, h4, h5⟩
    refine ⟨(s * (R * Real.cos phih) + t * (R * Real.cos phih),
      s * -(2 * R * Real.sin phih / 2) + t * (2 * R * Real.sin phih / 2)), ⟨s, t, h1, h2, h3, rfl, rfl⟩, ?_, ?_⟩
    · rw [h4]; ring
    · rw [h5]; ring

end Newt
