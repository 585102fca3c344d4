import Verif.Proofs.Translations

/-! # Algebra of the reduced translation operators -/

namespace Newt

open Spec

/-- solid harmonic indexed by a pair of integers, zero outside `|m| <= l` -/
noncomputable def Rz (p : ℤ × ℤ) (v : V3) : ℂ := if |p.2| ≤ p.1 then Rsol p.1.toNat p.2 v else 0

/-- all cells of a degree-`L` array -/
noncomputable def box (L : ℕ) : Finset (ℤ × ℤ) := Finset.Icc 0 (L : ℤ) ×ˢ Finset.Icc (-(L : ℤ)) L

theorem mem_box {L : ℕ} {p : ℤ × ℤ} :
    p ∈ box L ↔ 0 ≤ p.1 ∧ p.1 ≤ L ∧ -(L : ℤ) ≤ p.2 ∧ p.2 ≤ L := by
  rw [box, Finset.mem_product, Finset.mem_Icc, Finset.mem_Icc]; tauto

/-- the reduced form of the double sums -/
theorem sum_box {L l : ℕ} (hl : l ≤ L) (f : ℤ × ℤ → ℂ)
    (hf : ∀ p, p ∈ box L → ¬ (p.1 ≤ l ∧ |p.2| ≤ p.1) → f p = 0) :
    ∑ p ∈ box L, f p = ∑ k ∈ Finset.range (l + 1), ∑ n ∈ Finset.Icc (-(k : ℤ)) k, f (k, n) := by
  rw [Finset.sum_sigma']
  symm
  refine Finset.sum_of_injOn (fun x : (Σ _ : ℕ, ℤ) => ((x.1 : ℤ), x.2)) ?_ ?_ ?_ ?_
  · rintro ⟨a, b⟩ _ ⟨a', b'⟩ _ h
    simp only [Prod.mk.injEq, Nat.cast_inj] at h
    obtain ⟨rfl, rfl⟩ := h
    rfl
  · rintro ⟨a, b⟩ h
    simp only [Finset.coe_sigma, Set.mem_sigma_iff, Finset.mem_coe, Finset.mem_range,
      Finset.mem_Icc] at h
    exact mem_box.2 ⟨by simp, by simp; omega, by simp; omega, by simp; omega⟩
  · intro p hp hnot
    apply hf p hp
    rintro ⟨h1, h2⟩
    apply hnot
    have hb := mem_box.1 hp
    have h3 := abs_le.1 h2
    refine ⟨⟨p.1.toNat, p.2⟩, ?_, ?_⟩
    · simp only [Finset.coe_sigma, Set.mem_sigma_iff, Finset.mem_coe, Finset.mem_range,
        Finset.mem_Icc]
      omega
    · ext
      · simp; omega
      · rfl
  · intro _ _; rfl

theorem sum_box_up {L l : ℕ} (f : ℤ × ℤ → ℂ)
    (hf : ∀ p, p ∈ box L → ¬ (l ≤ p.1 ∧ |p.2| ≤ p.1) → f p = 0) :
    ∑ p ∈ box L, f p = ∑ k ∈ Finset.Icc l L, ∑ n ∈ Finset.Icc (-(k : ℤ)) k, f (k, n) := by
  rw [Finset.sum_sigma']
  symm
  refine Finset.sum_of_injOn (fun x : (Σ _ : ℕ, ℤ) => ((x.1 : ℤ), x.2)) ?_ ?_ ?_ ?_
  · rintro ⟨a, b⟩ _ ⟨a', b'⟩ _ h
    simp only [Prod.mk.injEq, Nat.cast_inj] at h
    obtain ⟨rfl, rfl⟩ := h
    rfl
  · rintro ⟨a, b⟩ h
    simp only [Finset.coe_sigma, Set.mem_sigma_iff, Finset.mem_coe, Finset.mem_Icc] at h
    exact mem_box.2 ⟨by simp, by simp; omega, by simp; omega, by simp; omega⟩
  · intro p hp hnot
    apply hf p hp
    rintro ⟨h1, h2⟩
    apply hnot
    have hb := mem_box.1 hp
    have h3 := abs_le.1 h2
    refine ⟨⟨p.1.toNat, p.2⟩, ?_, ?_⟩
    · simp only [Finset.coe_sigma, Set.mem_sigma_iff, Finset.mem_coe, Finset.mem_Icc]
      omega
    · ext
      · simp; omega
      · rfl
  · intro _ _; rfl

theorem Rz_nat (l : ℕ) (m : ℤ) (v : V3) : Rz (l, m) v = Rsol l m v := by
  rw [Rz]
  split_ifs with h
  · simp
  · rw [Rsol_out]
    simpa using h

theorem Rz_of_not {p : ℤ × ℤ} (h : ¬ |p.2| ≤ p.1) (v : V3) : Rz p v = 0 := by rw [Rz, if_neg h]

theorem Rz_zero_arg (p : ℤ × ℤ) : Rz p 0 = if p = 0 then 1 else 0 := by
  rw [Rz]
  by_cases h : |p.2| ≤ p.1
  · rw [if_pos h]
    have h' := abs_le.1 h
    by_cases h0 : p = 0
    · rw [if_pos h0, h0]; simp [Rsol_zero_zero]
    · rw [if_neg h0, Rsol_at_zero]
      intro h1
      apply h0
      ext <;> simp <;> omega
  · rw [if_neg h, if_neg]
    rintro rfl
    simp at h

/-- Addition theorem over any finite index set that contains the needed indices. -/
theorem Rz_add (S : Finset (ℤ × ℤ)) (p : ℤ × ℤ) (u v : V3)
    (hS : ∀ s : ℤ × ℤ, |s.2| ≤ s.1 → |(p - s).2| ≤ (p - s).1 → s ∈ S) :
    ∑ s ∈ S, Rz s u * Rz (p - s) v = Rz p (u + v) := by
  by_cases hp : |p.2| ≤ p.1
  · have hp' := abs_le.1 hp
    obtain ⟨l, hl⟩ : ∃ l : ℕ, p.1 = l := ⟨p.1.toNat, by omega⟩
    obtain ⟨pl, m⟩ := p
    simp only at hl hp hp' hS
    subst hl
    rw [Rz_nat, Rsol_add]
    have hb := sum_box (L := l) le_rfl (fun s => Rz s u * Rz (((l : ℤ), m) - s) v) (by
      intro s hs hn
      have hb := mem_box.1 hs
      by_cases h1 : |s.2| ≤ s.1
      · exact absurd ⟨hb.2.1, h1⟩ hn
      · rw [Rz_of_not h1, zero_mul])
    have e : ∑ s ∈ S, Rz s u * Rz (((l : ℤ), m) - s) v = ∑ s ∈ box l, Rz s u * Rz (((l : ℤ), m) - s) v := by
      rw [← Finset.sum_filter_of_ne (s := S) (p := fun s => s ∈ box l)]
      · apply Finset.sum_subset_zero_on_sdiff
        · intro s hs; exact (Finset.mem_filter.1 hs).2
        · intro s hs
          rw [Finset.mem_sdiff, Finset.mem_filter] at hs
          by_cases h1 : |s.2| ≤ s.1
          · by_cases h2 : |(((l : ℤ), m) - s).2| ≤ (((l : ℤ), m) - s).1
            · exact absurd ⟨hS s h1 h2, hs.1⟩ hs.2
            · rw [Rz_of_not h2, mul_zero]
          · rw [Rz_of_not h1, zero_mul]
        · intro _ _; rfl
      · intro s _ hne
        have h1 : |s.2| ≤ s.1 := by
          by_contra h; rw [Rz_of_not h, zero_mul] at hne; exact hne rfl
        have h2 : |(((l : ℤ), m) - s).2| ≤ (((l : ℤ), m) - s).1 := by
          by_contra h; rw [Rz_of_not h, mul_zero] at hne; exact hne rfl
        have h1' := abs_le.1 h1
        have h2' := abs_le.1 h2
        simp only [Prod.fst_sub, Prod.snd_sub] at h2'
        exact mem_box.2 ⟨by omega, by omega, by omega, by omega⟩
    rw [e, hb]
    apply Finset.sum_congr rfl
    intro k hk
    apply Finset.sum_congr rfl
    intro n _
    rw [Finset.mem_range] at hk
    rw [Rz_nat, show (((l : ℤ), m) - ((k : ℤ), n) : ℤ × ℤ) = (((l - k : ℕ) : ℤ), m - n) by
      ext <;> simp; omega, Rz_nat]
  · rw [Rz_of_not hp]
    apply Finset.sum_eq_zero
    intro s _
    by_cases h1 : |s.2| ≤ s.1
    · by_cases h2 : |(p - s).2| ≤ (p - s).1
      · exfalso
        apply hp
        have h1' := abs_le.1 h1
        have h2' := abs_le.1 h2
        simp only [Prod.fst_sub, Prod.snd_sub] at h2'
        exact abs_le.2 ⟨by omega, by omega⟩
      · rw [Rz_of_not h2, mul_zero]
    · rw [Rz_of_not h1, zero_mul]

/-- reduced inner moments -/
noncomputable def redI {L : ℕ} (q : Mom L) (p : ℤ × ℤ) : ℂ :=
  if |p.2| ≤ p.1 then q.get p.1.toNat p.2 / (Nlm p.1.toNat p.2 : ℂ) else 0

/-- reduced outer moments -/
noncomputable def redO {L : ℕ} (q : Mom L) (p : ℤ × ℤ) : ℂ :=
  if |p.2| ≤ p.1 then (Nlm p.1.toNat p.2 : ℂ) * q.get p.1.toNat p.2 / (2 * p.1.toNat + 1) else 0

theorem redI_nat {L : ℕ} (q : Mom L) (l : ℕ) (m : ℤ) (h : m.natAbs ≤ l) :
    redI q (l, m) = q.get l m / (Nlm l m : ℂ) := by
  rw [redI, if_pos (by simp only; rw [Int.abs_eq_natAbs]; omega)]; simp

theorem redO_nat {L : ℕ} (q : Mom L) (l : ℕ) (m : ℤ) (h : m.natAbs ≤ l) :
    redO q (l, m) = (Nlm l m : ℂ) * q.get l m / (2 * l + 1) := by
  rw [redO, if_pos (by simp only; rw [Int.abs_eq_natAbs]; omega)]; simp

theorem trInner_red {L : ℕ} (q : Mom L) (d : V3) (l : ℕ) (hl : l ≤ L) (m : ℤ) :
    trInner q d l m = (Nlm l m : ℂ) * ∑ s ∈ box L, Rz (((l : ℤ), m) - s) d * redI q s := by
  rw [trInner, sum_box hl]
  · congr 1
    apply Finset.sum_congr rfl
    intro k hk
    apply Finset.sum_congr rfl
    intro n hn
    rw [Finset.mem_range] at hk
    rw [Finset.mem_Icc] at hn
    rw [redI_nat _ _ _ (by omega), show (((l : ℤ), m) - ((k : ℤ), n) : ℤ × ℤ) = (((l - k : ℕ) : ℤ), m - n)
      by ext <;> simp; omega, Rz_nat]
  · intro p hp hn
    by_cases h1 : |p.2| ≤ p.1
    · have h1' := abs_le.1 h1
      have h2 : ¬ p.1 ≤ l := fun h => hn ⟨h, h1⟩
      rw [Rz_of_not, zero_mul]
      intro h
      have := abs_le.1 h
      simp only [Prod.fst_sub, Prod.snd_sub] at this
      omega
    · rw [redI, if_neg h1, mul_zero]

theorem trOuter_red {L : ℕ} (Q : Mom L) (d : V3) (l : ℕ) (m : ℤ) (hm : m.natAbs ≤ l) :
    trOuter Q d l m = ((2 * l + 1 : ℂ) / (Nlm l m : ℂ)) *
      ∑ s ∈ box L, Rz (s - ((l : ℤ), m)) (-d) * redO Q s := by
  rw [trOuter, if_pos hm, sum_box_up (l := l)]
  · congr 1
    apply Finset.sum_congr rfl
    intro k hk
    apply Finset.sum_congr rfl
    intro n hn
    rw [Finset.mem_Icc] at hk hn
    rw [redO_nat _ _ _ (by omega), show (((k : ℤ), n) - ((l : ℤ), m) : ℤ × ℤ) = (((k - l : ℕ) : ℤ), n - m)
      by ext <;> simp; omega, Rz_nat]
  · intro p hp hn
    by_cases h1 : |p.2| ≤ p.1
    · have h1' := abs_le.1 h1
      have h2 : ¬ l ≤ p.1 := fun h => hn ⟨h, h1⟩
      rw [Rz_of_not, zero_mul]
      intro h
      have := abs_le.1 h
      simp only [Prod.fst_sub, Prod.snd_sub] at this
      omega
    · rw [redO, if_neg h1, mul_zero]

theorem redI_translate {L : ℕ} (q : Mom L) (hq : Valid q) (d : V3) (p : ℤ × ℤ) (hp : p ∈ box L)
    (hc : |p.2| ≤ p.1) :
    redI (translate_qlm q d) p = ∑ s ∈ box L, Rz (p - s) d * redI q s := by
  have hb := mem_box.1 hp
  have hc' := abs_le.1 hc
  obtain ⟨l, hl⟩ : ∃ l : ℕ, p.1 = l := ⟨p.1.toNat, by omega⟩
  obtain ⟨pl, m⟩ := p
  simp only at hl hc hc' hb
  subst hl
  rw [redI_nat _ _ _ (by omega), translate_qlm_closed q hq, Mom.get_ofFn _ (by omega) (by omega),
    trInner_red _ _ _ (by omega)]
  have := Nlm_ne l m
  field_simp

theorem redO_translate {L : ℕ} (Q : Mom L) (hQ : Valid Q) (d : V3) (p : ℤ × ℤ) (hp : p ∈ box L)
    (hc : |p.2| ≤ p.1) :
    redO (translate_Qlmb Q d) p = ∑ s ∈ box L, Rz (s - p) (-d) * redO Q s := by
  have hb := mem_box.1 hp
  have hc' := abs_le.1 hc
  obtain ⟨l, hl⟩ : ∃ l : ℕ, p.1 = l := ⟨p.1.toNat, by omega⟩
  obtain ⟨pl, m⟩ := p
  simp only at hl hc hc' hb
  subst hl
  rw [redO_nat _ _ _ (by omega), translate_Qlmb_closed Q hQ, Mom.get_ofFn _ (by omega) (by omega),
    trOuter_red _ _ _ _ (by omega)]
  have := Nlm_ne l m
  have h2 : (2 * (l : ℂ) + 1) ≠ 0 := by exact_mod_cast (by omega : 2 * l + 1 ≠ 0)
  field_simp

theorem valid_ofFn {L : ℕ} (f : ℕ → ℤ → ℂ)
    (h1 : ∀ l m, l ≤ L → m.natAbs ≤ L → f l (-m) = (-1) ^ m.natAbs * (starRingEnd ℂ) (f l m))
    (h2 : ∀ l m, l ≤ L → l < m.natAbs → f l m = 0) : Valid (Mom.ofFn L f) := by
  constructor
  · intro l m hl hm
    rw [Mom.get_ofFn _ hl (by omega), Mom.get_ofFn _ hl hm, h1 l m hl hm]
  · intro l m hl hm h
    rw [Mom.get_ofFn _ hl hm, h2 l m hl h]

theorem translate_qlm_valid {L : ℕ} (q : Mom L) (hq : Valid q) (d : V3) :
    Valid (translate_qlm q d) := by
  rw [translate_qlm_closed q hq]
  exact valid_ofFn _ (fun l m hl _ => trInner_neg q hq.1 d l hl m)
    (fun l m _ h => trInner_out q d l m h)

theorem translate_Qlmb_valid {L : ℕ} (Q : Mom L) (hQ : Valid Q) (d : V3) :
    Valid (translate_Qlmb Q d) := by
  rw [translate_Qlmb_closed Q hQ]
  exact valid_ofFn _ (fun l m _ _ => trOuter_neg Q hQ.1 d l m)
    (fun l m _ h => by rw [trOuter, if_neg (by omega)])

theorem mom_ext_redI {L : ℕ} {q q' : Mom L} (hq : Valid q) (hq' : Valid q')
    (h : ∀ p ∈ box L, |p.2| ≤ p.1 → redI q p = redI q' p) : q = q' := by
  apply Mom.ext_get
  intro l m hl hm
  by_cases hml : m.natAbs ≤ l
  · have := h (l, m) (mem_box.2 ⟨by simp, by simp; omega, by simp; omega, by simp; omega⟩)
      (by simp only; rw [Int.abs_eq_natAbs]; omega)
    rw [redI_nat _ _ _ hml, redI_nat _ _ _ hml, div_left_inj' (Nlm_ne l m)] at this
    exact this
  · rw [hq.2 l m hl hm (by omega), hq'.2 l m hl hm (by omega)]

theorem mom_ext_redO {L : ℕ} {q q' : Mom L} (hq : Valid q) (hq' : Valid q')
    (h : ∀ p ∈ box L, |p.2| ≤ p.1 → redO q p = redO q' p) : q = q' := by
  apply Mom.ext_get
  intro l m hl hm
  by_cases hml : m.natAbs ≤ l
  · have := h (l, m) (mem_box.2 ⟨by simp, by simp; omega, by simp; omega, by simp; omega⟩)
      (by simp only; rw [Int.abs_eq_natAbs]; omega)
    have h2 : (2 * (l : ℂ) + 1) ≠ 0 := by exact_mod_cast (by omega : 2 * l + 1 ≠ 0)
    rw [redO_nat _ _ _ hml, redO_nat _ _ _ hml, div_left_inj' h2] at this
    exact mul_left_cancel₀ (Nlm_ne l m) this
  · rw [hq.2 l m hl hm (by omega), hq'.2 l m hl hm (by omega)]

theorem redI_cone {L : ℕ} (q : Mom L) (p : ℤ × ℤ) (h : ¬ |p.2| ≤ p.1) : redI q p = 0 := by
  rw [redI, if_neg h]

theorem redO_cone {L : ℕ} (q : Mom L) (p : ℤ × ℤ) (h : ¬ |p.2| ≤ p.1) : redO q p = 0 := by
  rw [redO, if_neg h]

theorem redI_sum_out {L : ℕ} (q : Mom L) (d : V3) (p : ℤ × ℤ) (h : ¬ |p.2| ≤ p.1) :
    ∑ s ∈ box L, Rz (p - s) d * redI q s = 0 := by
  apply Finset.sum_eq_zero
  intro s _
  by_cases h1 : |s.2| ≤ s.1
  · rw [Rz_of_not, zero_mul]
    intro h2
    apply h
    have h1' := abs_le.1 h1
    have h2' := abs_le.1 h2
    simp only [Prod.fst_sub, Prod.snd_sub] at h2'
    exact abs_le.2 ⟨by omega, by omega⟩
  · rw [redI_cone _ _ h1, mul_zero]

theorem redI_translate' {L : ℕ} (q : Mom L) (hq : Valid q) (d : V3) (p : ℤ × ℤ) (hp : p ∈ box L) :
    redI (translate_qlm q d) p = ∑ s ∈ box L, Rz (p - s) d * redI q s := by
  by_cases hc : |p.2| ≤ p.1
  · exact redI_translate q hq d p hp hc
  · rw [redI_cone _ _ hc, redI_sum_out q d p hc]

theorem translate_qlm_add {L : ℕ} (q : Mom L) (hq : Valid q) (u v : V3) :
    translate_qlm (translate_qlm q u) v = translate_qlm q (u + v) := by
  have hu := translate_qlm_valid q hq u
  apply mom_ext_redI (translate_qlm_valid _ hu v) (translate_qlm_valid q hq _)
  intro p hp hc
  rw [redI_translate _ hu v p hp hc, redI_translate q hq _ p hp hc]
  have : ∀ s ∈ box L, Rz (p - s) v * redI (translate_qlm q u) s =
      ∑ t ∈ box L, Rz (s - t) u * Rz (p - s) v * redI q t := by
    intro s hs
    rw [redI_translate' q hq u s hs, Finset.mul_sum]
    apply Finset.sum_congr rfl
    intro t _
    ring
  rw [Finset.sum_congr rfl this, Finset.sum_comm]
  apply Finset.sum_congr rfl
  intro t ht
  rw [← Finset.sum_mul]
  by_cases htc : |t.2| ≤ t.1
  · congr 1
    have e := Rz_add ((box L).image fun s => s - t) (p - t) u v (by
      intro s h1 h2
      rw [Finset.mem_image]
      refine ⟨s + t, ?_, by simp⟩
      have h1' := abs_le.1 h1
      have h2' := abs_le.1 h2
      have ht' := abs_le.1 htc
      have hb := mem_box.1 hp
      simp only [Prod.fst_sub, Prod.snd_sub] at h2'
      refine mem_box.2 ⟨?_, ?_, ?_, ?_⟩ <;> simp <;> omega)
    rw [← e, Finset.sum_image (by intro a _ b _ h; simpa using h)]
    apply Finset.sum_congr rfl
    intro s _
    rw [show p - t - (s - t) = p - s by abel]
  · rw [redI_cone _ _ htc, mul_zero, mul_zero]

theorem translate_Qlmb_add {L : ℕ} (Q : Mom L) (hQ : Valid Q) (u v : V3) :
    translate_Qlmb (translate_Qlmb Q u) v = translate_Qlmb Q (u + v) := by
  have hu := translate_Qlmb_valid Q hQ u
  apply mom_ext_redO (translate_Qlmb_valid _ hu v) (translate_Qlmb_valid Q hQ _)
  intro p hp hc
  rw [redO_translate _ hu v p hp hc, redO_translate Q hQ _ p hp hc]
  have : ∀ s ∈ box L, Rz (s - p) (-v) * redO (translate_Qlmb Q u) s =
      ∑ t ∈ box L, Rz (s - p) (-v) * Rz (t - s) (-u) * redO Q t := by
    intro s hs
    by_cases hsc : |s.2| ≤ s.1
    · rw [redO_translate Q hQ u s hs hsc, Finset.mul_sum]
      apply Finset.sum_congr rfl
      intro t _
      ring
    · have h1 : Rz (s - p) (-v) = 0 := by
        apply Rz_of_not
        intro h2
        apply hsc
        have h1' := abs_le.1 hc
        have h2' := abs_le.1 h2
        simp only [Prod.fst_sub, Prod.snd_sub] at h2'
        exact abs_le.2 ⟨by omega, by omega⟩
      simp [h1]
  rw [Finset.sum_congr rfl this, Finset.sum_comm]
  apply Finset.sum_congr rfl
  intro t ht
  rw [← Finset.sum_mul]
  congr 1
  have e := Rz_add ((box L).image fun s => s - p) (t - p) (-v) (-u) (by
    intro s h1 h2
    rw [Finset.mem_image]
    refine ⟨s + p, ?_, by simp⟩
    have h1' := abs_le.1 h1
    have h2' := abs_le.1 h2
    have hc' := abs_le.1 hc
    have hb := mem_box.1 ht
    simp only [Prod.fst_sub, Prod.snd_sub] at h2'
    refine mem_box.2 ⟨?_, ?_, ?_, ?_⟩ <;> simp <;> omega)
  rw [show -(u + v) = -v + -u by abel, ← e,
    Finset.sum_image (by intro a _ b _ h; simpa using h)]
  apply Finset.sum_congr rfl
  intro s _
  rw [show t - p - (s - p) = t - s by abel]

/-- the pairing as a box sum -/
theorem pairing_red {L : ℕ} (q Q : Mom L) :
    ∑ l ∈ Finset.range (L + 1), ∑ m ∈ Finset.Icc (-(l : ℤ)) l, q.get l m * Q.get l m / (2 * l + 1) =
      ∑ p ∈ box L, redI q p * redO Q p := by
  rw [sum_box le_rfl]
  · apply Finset.sum_congr rfl
    intro k _
    apply Finset.sum_congr rfl
    intro n hn
    rw [Finset.mem_Icc] at hn
    rw [redI_nat _ _ _ (by omega), redO_nat _ _ _ (by omega)]
    have := Nlm_ne k n
    field_simp
  · intro p hp hn
    have hb := mem_box.1 hp
    rw [redI_cone _ _ (fun h => hn ⟨hb.2.1, h⟩), zero_mul]

theorem pairing_adjoint {L : ℕ} (q Q : Mom L) (hq : Valid q) (hQ : Valid Q) (d : V3) :
    ∑ p ∈ box L, redI (translate_qlm q d) p * redO Q p =
      ∑ p ∈ box L, redI q p * redO (translate_Qlmb Q (-d)) p := by
  have h1 : ∀ p ∈ box L, redI (translate_qlm q d) p * redO Q p =
      ∑ s ∈ box L, Rz (p - s) d * redI q s * redO Q p := by
    intro p hp
    rw [redI_translate' q hq d p hp, Finset.sum_mul]
  have h2 : ∀ p ∈ box L, redI q p * redO (translate_Qlmb Q (-d)) p =
      ∑ s ∈ box L, Rz (s - p) d * redI q p * redO Q s := by
    intro p hp
    by_cases hc : |p.2| ≤ p.1
    · rw [redO_translate Q hQ (-d) p hp hc, Finset.mul_sum, neg_neg]
      apply Finset.sum_congr rfl
      intro s _
      ring
    · rw [redI_cone _ _ hc]; simp
  rw [Finset.sum_congr rfl h1, Finset.sum_congr rfl h2, Finset.sum_comm]

end Newt
