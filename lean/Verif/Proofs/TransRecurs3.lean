import Verif.Proofs.TransRecurs2

/-! # Rotations and translations of moment arrays intertwine -/

namespace Newt

open Polynomial Spec

/-- Rotation of a moment array in closed form. -/
noncomputable def rotM {L : ℕ} (alpha beta gamma : ℝ) (q : Mom L) : Mom L := Mom.ofFn L fun l m =>
  if m.natAbs ≤ l then ∑ n ∈ Finset.Icc (-(l : ℤ)) l, bigD l alpha beta gamma m n * q.get l n
  else q.get l m

theorem rotate_qlm_rotM {L : ℕ} (q : Mom L) (alpha beta gamma : ℝ) :
    rotate_qlm q alpha beta gamma = some (rotM alpha beta gamma q) := rotate_qlm_closed q alpha beta gamma

theorem rotM_inv {L : ℕ} (q : Mom L) (alpha beta gamma : ℝ) :
    rotM (-gamma) (-beta) (-alpha) (rotM alpha beta gamma q) = q := by
  obtain ⟨q', h1, h2⟩ := C47_inverse q alpha beta gamma
  rw [rotate_qlm_rotM, Option.some.injEq] at h1 h2
  rw [h1, h2]

theorem rotate_Ds_rotM {L : ℕ} (hL : 1 ≤ L) (alpha beta gamma : ℝ) :
    ∃ ds, wignerDl L alpha beta gamma = some ds ∧ ∀ q : Mom L,
      rotate_qlm_Ds q ds false = rotM alpha beta gamma q ∧
      rotate_qlm_Ds q ds true = rotM (-gamma) (-beta) (-alpha) q := by
  obtain ⟨ds, h1, -⟩ := wignerDl_some L hL alpha beta gamma
  refine ⟨ds, h1, fun q => ?_⟩
  obtain ⟨ds', h1', h2, h3⟩ := C47_Ds hL q alpha beta gamma
  rw [h1, Option.some.injEq] at h1'
  subst h1'
  rw [rotate_qlm_rotM, Option.some.injEq] at h2 h3
  exact ⟨h2.symm, h3.symm⟩

theorem rotM_get {L : ℕ} (alpha beta gamma : ℝ) (q : Mom L) (l : ℕ) (m : ℤ) (hl : l ≤ L)
    (hm : m.natAbs ≤ l) :
    (rotM alpha beta gamma q).get l m =
      ∑ n ∈ Finset.Icc (-(l : ℤ)) l, bigD l alpha beta gamma m n * q.get l n := by
  rw [rotM, Mom.get_ofFn _ hl (by omega), if_pos hm]

theorem bigD_conj (l : ℕ) (alpha beta gamma : ℝ) (a b : ℤ) :
    (starRingEnd ℂ) (bigD l alpha beta gamma a b) = bigD l (-alpha) beta (-gamma) a b := by
  rw [bigD, bigD, map_mul, map_mul, Complex.conj_ofReal, conj_exp, conj_exp]
  congr 2
  · congr 1
    push_cast; ring
  · push_cast; ring

/-- Rotating after an inner translation = translating by the rotated vector after rotating. -/
theorem rotM_inner {L : ℕ} (q : Mom L) (d : V3) (alpha beta gamma : ℝ) :
    rotM alpha beta gamma (Mom.ofFn L (trInner q d)) =
      Mom.ofFn L (trInner (rotM alpha beta gamma q) (eul alpha beta gamma d)) := by
  apply Mom.ext_get
  intro l m hl hm
  rw [Mom.get_ofFn _ hl hm]
  by_cases h : m.natAbs ≤ l
  · rw [rotM_get _ _ _ _ _ _ hl h]
    have e : ∀ n ∈ Finset.Icc (-(l : ℤ)) l,
        bigD l alpha beta gamma m n * (Mom.ofFn L (trInner q d)).get l n =
        bigD l alpha beta gamma m n * trInner q d l n := by
      intro n hn
      rw [Finset.mem_Icc] at hn
      rw [Mom.get_ofFn _ hl (by omega)]
    rw [Finset.sum_congr rfl e, rot_trInner q d alpha beta gamma l m h, trInner]
    congr 1
    apply Finset.sum_congr rfl
    intro k hk
    apply Finset.sum_congr rfl
    intro n hn
    rw [Finset.mem_range] at hk
    rw [Finset.mem_Icc] at hn
    rw [rotM_get _ _ _ _ _ _ (by omega) (by omega)]
  · rw [rotM, Mom.get_ofFn _ hl hm, if_neg h, Mom.get_ofFn _ hl hm, trInner_out _ _ _ _ (by omega),
      trInner_out _ _ _ _ (by omega)]

theorem unit_transpose (k l : ℕ) (W U K K' : ℤ → ℤ → ℂ)
    (hW : ∀ a b : ℤ, a.natAbs ≤ k → b.natAbs ≤ k →
      ∑ n ∈ Finset.Icc (-(k : ℤ)) k, W n a * (starRingEnd ℂ) (W n b) = if a = b then 1 else 0)
    (hU : ∀ a b : ℤ, a.natAbs ≤ l → b.natAbs ≤ l →
      ∑ n ∈ Finset.Icc (-(l : ℤ)) l, U a n * (starRingEnd ℂ) (U b n) = if a = b then 1 else 0)
    (hK : ∀ n c : ℤ, n.natAbs ≤ k → c.natAbs ≤ l →
      ∑ a ∈ Finset.Icc (-(k : ℤ)) k, W n a * K a c = ∑ c' ∈ Finset.Icc (-(l : ℤ)) l, K' n c' * U c' c)
    (m b : ℤ) (hm : m.natAbs ≤ l) (hb : b.natAbs ≤ k) :
    ∑ a ∈ Finset.Icc (-(l : ℤ)) l, (starRingEnd ℂ) (U m a) * K b a =
      ∑ n ∈ Finset.Icc (-(k : ℤ)) k, K' n m * (starRingEnd ℂ) (W n b) := by
  have h1 : ∀ a ∈ Finset.Icc (-(l : ℤ)) l, K b a = ∑ n ∈ Finset.Icc (-(k : ℤ)) k,
      (starRingEnd ℂ) (W n b) * ∑ c' ∈ Finset.Icc (-(l : ℤ)) l, K' n c' * U c' a := by
    intro a ha
    rw [Finset.mem_Icc] at ha
    have : ∀ n ∈ Finset.Icc (-(k : ℤ)) k,
        (starRingEnd ℂ) (W n b) * ∑ c' ∈ Finset.Icc (-(l : ℤ)) l, K' n c' * U c' a =
        ∑ a' ∈ Finset.Icc (-(k : ℤ)) k, W n a' * (starRingEnd ℂ) (W n b) * K a' a := by
      intro n hn
      rw [Finset.mem_Icc] at hn
      rw [← hK n a (by omega) (by omega), Finset.mul_sum]
      apply Finset.sum_congr rfl
      intros; ring
    rw [Finset.sum_congr rfl this, Finset.sum_comm, Finset.sum_eq_single b]
    · rw [← Finset.sum_mul, hW b b hb hb, if_pos rfl, one_mul]
    · intro a' ha' hne
      rw [Finset.mem_Icc] at ha'
      rw [← Finset.sum_mul, hW a' b (by omega) hb, if_neg hne, zero_mul]
    · intro hh; exact absurd (Finset.mem_Icc.2 ⟨by omega, by omega⟩) hh
  have h2 : ∀ a ∈ Finset.Icc (-(l : ℤ)) l, (starRingEnd ℂ) (U m a) * K b a =
      ∑ n ∈ Finset.Icc (-(k : ℤ)) k, ∑ c' ∈ Finset.Icc (-(l : ℤ)) l,
        (starRingEnd ℂ) (W n b) * K' n c' * (U c' a * (starRingEnd ℂ) (U m a)) := by
    intro a ha
    rw [h1 a ha, Finset.mul_sum]
    apply Finset.sum_congr rfl
    intro n _
    rw [Finset.mul_sum, Finset.mul_sum]
    apply Finset.sum_congr rfl
    intros; ring
  rw [Finset.sum_congr rfl h2, Finset.sum_comm]
  apply Finset.sum_congr rfl
  intro n _
  rw [Finset.sum_comm, Finset.sum_eq_single m]
  · rw [← Finset.mul_sum, hU m m hm hm, if_pos rfl]; ring
  · intro c' hc' hne
    rw [Finset.mem_Icc] at hc'
    rw [← Finset.mul_sum, hU c' m (by omega) hm, if_neg hne, mul_zero]
  · intro hh; exact absurd (Finset.mem_Icc.2 ⟨by omega, by omega⟩) hh

theorem cov_outer (l k : ℕ) (hlk : l ≤ k) (alpha beta gamma : ℝ) (m b : ℤ) (hm : m.natAbs ≤ l)
    (hb : b.natAbs ≤ k) (d : V3) :
    ∑ a ∈ Finset.Icc (-(l : ℤ)) l, bigD l (-alpha) beta (-gamma) m a *
        ((Nlm k b : ℂ) * Rsol (k - l) (b - a) d / (Nlm l a : ℂ)) =
      ∑ n ∈ Finset.Icc (-(k : ℤ)) k,
        (Nlm k n : ℂ) * Rsol (k - l) (n - m) (eul alpha beta gamma d) / (Nlm l m : ℂ) *
          bigD k (-alpha) beta (-gamma) n b := by
  simp only [← bigD_conj]
  refine unit_transpose k l (bigD k alpha beta gamma) (bigD l alpha beta gamma)
    (fun b a => (Nlm k b : ℂ) * Rsol (k - l) (b - a) d / (Nlm l a : ℂ))
    (fun n m => (Nlm k n : ℂ) * Rsol (k - l) (n - m) (eul alpha beta gamma d) / (Nlm l m : ℂ))
    (bigD_unitary_cols k alpha beta gamma) (bigD_unitary_rows l alpha beta gamma) ?_ m b hm hb
  intro n c hn hc
  have h := cov_inner (k - l) l alpha beta gamma n c hc d
  rw [show k - l + l = k by omega] at h
  have h1 : ∀ a ∈ Finset.Icc (-(k : ℤ)) k,
      bigD k alpha beta gamma n a * ((Nlm k a : ℂ) * Rsol (k - l) (a - c) d / (Nlm l c : ℂ)) =
      (Nlm k n : ℂ) / (Nlm l c : ℂ) * (rM k alpha beta gamma n a * Rsol (k - l) (a - c) d) := by
    intro a _
    rw [bigD_rM _ _ _ _ _ _ hn]
    have := Nlm_ne k a
    have := Nlm_ne l c
    field_simp
  rw [Finset.sum_congr rfl h1, ← Finset.mul_sum, h, Finset.mul_sum]
  apply Finset.sum_congr rfl
  intro c' hc'
  rw [Finset.mem_Icc] at hc'
  rw [bigD_rM _ _ _ _ _ _ (by omega : c'.natAbs ≤ l)]
  have := Nlm_ne l c'
  have := Nlm_ne l c
  field_simp

theorem rz_neg (t : ℝ) (v : V3) : rz t (-v) = -rz t v := by
  funext i; fin_cases i <;> simp [rz] <;> ring
theorem ry_neg (t : ℝ) (v : V3) : ry t (-v) = -ry t v := by
  funext i; fin_cases i <;> simp [ry] <;> ring
theorem eul_neg (alpha beta gamma : ℝ) (v : V3) : eul alpha beta gamma (-v) = -eul alpha beta gamma v := by
  rw [eul, eul, rz_neg, ry_neg, rz_neg]

/-- Rotating after an outer translation. -/
theorem rotM_outer {L : ℕ} (Q : Mom L) (d : V3) (alpha beta gamma : ℝ) :
    rotM (-alpha) beta (-gamma) (Mom.ofFn L (trOuter Q d)) =
      Mom.ofFn L (trOuter (rotM (-alpha) beta (-gamma) Q) (eul alpha beta gamma d)) := by
  apply Mom.ext_get
  intro l m hl hm
  rw [Mom.get_ofFn _ hl hm]
  by_cases h : m.natAbs ≤ l
  · rw [rotM_get _ _ _ _ _ _ hl h, trOuter, if_pos h]
    have e : ∀ a ∈ Finset.Icc (-(l : ℤ)) l,
        bigD l (-alpha) beta (-gamma) m a * (Mom.ofFn L (trOuter Q d)).get l a =
        ∑ k ∈ Finset.Icc l L, ∑ b ∈ Finset.Icc (-(k : ℤ)) k,
          (2 * l + 1) * (bigD l (-alpha) beta (-gamma) m a *
            ((Nlm k b : ℂ) * Rsol (k - l) (b - a) (-d) / (Nlm l a : ℂ))) * (Q.get k b / (2 * k + 1)) := by
      intro a ha
      rw [Finset.mem_Icc] at ha
      rw [Mom.get_ofFn _ hl (by omega), trOuter, if_pos (by omega), Finset.mul_sum, Finset.mul_sum]
      apply Finset.sum_congr rfl
      intro k _
      rw [Finset.mul_sum, Finset.mul_sum]
      apply Finset.sum_congr rfl
      intros; ring
    rw [Finset.sum_congr rfl e, Finset.sum_comm, Finset.mul_sum]
    apply Finset.sum_congr rfl
    intro k hk
    rw [Finset.mem_Icc] at hk
    have e2 : ∀ n ∈ Finset.Icc (-(k : ℤ)) k,
        Rsol (k - l) (n - m) (-eul alpha beta gamma d) *
          ((Nlm k n : ℂ) * (rotM (-alpha) beta (-gamma) Q).get k n / (2 * k + 1)) =
        ∑ b ∈ Finset.Icc (-(k : ℤ)) k, (Nlm l m : ℂ) *
          ((Nlm k n : ℂ) * Rsol (k - l) (n - m) (-eul alpha beta gamma d) / (Nlm l m : ℂ) *
          bigD k (-alpha) beta (-gamma) n b) * (Q.get k b / (2 * k + 1)) := by
      intro n hn
      rw [Finset.mem_Icc] at hn
      rw [rotM_get _ _ _ _ _ _ hk.2 (by omega), Finset.mul_sum, Finset.sum_div, Finset.mul_sum]
      apply Finset.sum_congr rfl
      intro b _
      have := Nlm_ne l m
      field_simp
    rw [Finset.sum_congr rfl e2, Finset.sum_comm (s := Finset.Icc (-(l : ℤ)) l),
      Finset.sum_comm (s := Finset.Icc (-(k : ℤ)) k) (t := Finset.Icc (-(k : ℤ)) k), Finset.mul_sum]
    apply Finset.sum_congr rfl
    intro b hb
    rw [Finset.mem_Icc] at hb
    have hc := cov_outer l k hk.1 alpha beta gamma m b h (by omega) (-d)
    rw [eul_neg] at hc
    rw [← Finset.sum_mul, ← Finset.mul_sum, hc, ← Finset.sum_mul, ← Finset.mul_sum]
    have := Nlm_ne l m
    field_simp
  · rw [rotM, Mom.get_ofFn _ hl hm, if_neg h, Mom.get_ofFn _ hl hm, trOuter, if_neg h, trOuter, if_neg h]

theorem rz_modulus (t : ℝ) (v : V3) : modulus (rz t v) = modulus v := by
  rw [← rotF_z, rotF_modulus ez_ne]
theorem ry_modulus (t : ℝ) (v : V3) : modulus (ry t v) = modulus v := by
  rw [← rotF_y, rotF_modulus ey_ne]
theorem eul_modulus (alpha beta gamma : ℝ) (v : V3) : modulus (eul alpha beta gamma v) = modulus v := by
  rw [eul, rz_modulus, ry_modulus, rz_modulus]

theorem fO_dual (j : ℕ) (c : ℤ) (hc : c.natAbs ≤ j) (alpha beta gamma : ℝ) (d : V3) :
    fO j c d = ∑ c' ∈ Finset.Icc (-(j : ℤ)) j, rM j alpha beta gamma c' c * fO j c' (eul alpha beta gamma d) := by
  have h1 : ∀ c' ∈ Finset.Icc (-(j : ℤ)) j, rM j alpha beta gamma c' c * fO j c' (eul alpha beta gamma d) =
      (Nlm j c : ℂ) / (2 * j + 1) / ((modulus d ^ (2 * j + 1) : ℝ) : ℂ) *
        ∑ b ∈ Finset.Icc (-(j : ℤ)) j, bigD j alpha beta gamma c' c *
          (starRingEnd ℂ) (bigD j alpha beta gamma c' b) * (starRingEnd ℂ) (solidS j b d) := by
    intro c' hc'
    rw [Finset.mem_Icc] at hc'
    have h := congrArg (starRingEnd ℂ) (solidS_rot j c' (by omega) alpha beta gamma d)
    rw [map_sum] at h
    simp only [map_mul] at h
    simp only [mul_assoc]
    rw [← Finset.mul_sum, ← h, fO, eul_modulus, bigD_rM _ _ _ _ _ _ (by omega : c'.natAbs ≤ j), solidS,
      map_mul, Complex.conj_ofReal, eul]
    have := Nlm_ne j c
    have h3 : ((2 * j + 1 : ℂ)) ≠ 0 := by exact_mod_cast (by omega : 2 * j + 1 ≠ 0)
    field_simp
  rw [Finset.sum_congr rfl h1, ← Finset.mul_sum, Finset.sum_comm, Finset.sum_eq_single c]
  · rw [← Finset.sum_mul, bigD_unitary_cols j alpha beta gamma c c hc hc, if_pos rfl, fO, solidS, map_mul,
      Complex.conj_ofReal]
    ring
  · intro b hb hne
    rw [Finset.mem_Icc] at hb
    rw [← Finset.sum_mul, bigD_unitary_cols j alpha beta gamma c b hc (by omega), if_neg (Ne.symm hne),
      zero_mul]
  · intro hh; exact absurd (Finset.mem_Icc.2 ⟨by omega, by omega⟩) hh

/-- The inner-to-outer kernel is covariant. -/
theorem fO_cov (L k : ℕ) (a b : ℤ) (ha : a.natAbs ≤ L) (hb : b.natAbs ≤ k) (alpha beta gamma : ℝ) (d : V3) :
    fO (L + k) (a + b) d = ∑ M ∈ Finset.Icc (-(L : ℤ)) L, ∑ n ∈ Finset.Icc (-(k : ℤ)) k,
      rM L alpha beta gamma M a * rM k alpha beta gamma n b * fO (L + k) (M + n) (eul alpha beta gamma d) := by
  rw [fO_dual (L + k) (a + b) (by omega) alpha beta gamma d]
  have h1 : ∀ c ∈ Finset.Icc (-((L + k : ℕ) : ℤ)) ((L + k : ℕ) : ℤ),
      rM (L + k) alpha beta gamma c (a + b) * fO (L + k) c (eul alpha beta gamma d) =
      ∑ n ∈ Finset.Icc (-(k : ℤ)) k, rM L alpha beta gamma (c - n) a * rM k alpha beta gamma n b *
        fO (L + k) c (eul alpha beta gamma d) := by
    intro c _
    rw [← rM_conv L k alpha beta gamma a b c ha hb, Finset.sum_mul]
  rw [Finset.sum_congr rfl h1, Finset.sum_comm, Finset.sum_comm (s := Finset.Icc (-(L : ℤ)) L)]
  apply Finset.sum_congr rfl
  intro n hn
  rw [Finset.mem_Icc] at hn
  rw [sum_shift L k n (by omega) _ (fun c hc => by rw [rM_out _ _ _ _ _ _ hc ha]; ring)]
  apply Finset.sum_congr rfl
  intro M _
  rw [add_sub_cancel_right]

theorem cov_q2Q (L k : ℕ) (M b : ℤ) (hM : M.natAbs ≤ L) (hb : b.natAbs ≤ k) (alpha beta gamma : ℝ) (d : V3) :
    ∑ a ∈ Finset.Icc (-(L : ℤ)) L, bigD L (-alpha) beta (-gamma) M a *
        (fO (L + k) (a + b) d / ((Nlm L a : ℂ) * (Nlm k b : ℂ))) =
      ∑ n ∈ Finset.Icc (-(k : ℤ)) k,
        fO (L + k) (M + n) (eul alpha beta gamma d) / ((Nlm L M : ℂ) * (Nlm k n : ℂ)) *
          bigD k alpha beta gamma n b := by
  have h1 : ∀ a ∈ Finset.Icc (-(L : ℤ)) L, bigD L (-alpha) beta (-gamma) M a *
        (fO (L + k) (a + b) d / ((Nlm L a : ℂ) * (Nlm k b : ℂ))) =
      ∑ M' ∈ Finset.Icc (-(L : ℤ)) L, bigD L alpha beta gamma M' a *
        (starRingEnd ℂ) (bigD L alpha beta gamma M a) *
        ∑ n ∈ Finset.Icc (-(k : ℤ)) k, fO (L + k) (M' + n) (eul alpha beta gamma d) /
          ((Nlm L M' : ℂ) * (Nlm k n : ℂ)) * bigD k alpha beta gamma n b := by
    intro a ha
    rw [Finset.mem_Icc] at ha
    rw [← bigD_conj, fO_cov L k a b (by omega) hb alpha beta gamma d, Finset.sum_div, Finset.mul_sum]
    apply Finset.sum_congr rfl
    intro M' hM'
    rw [Finset.mem_Icc] at hM'
    rw [Finset.sum_div, Finset.mul_sum, Finset.mul_sum]
    apply Finset.sum_congr rfl
    intro n hn
    rw [Finset.mem_Icc] at hn
    rw [bigD_rM k _ _ _ _ _ (by omega : n.natAbs ≤ k), bigD_rM L _ _ _ M' a (by omega)]
    have := Nlm_ne L M'
    have := Nlm_ne L a
    have := Nlm_ne k n
    have := Nlm_ne k b
    field_simp
  rw [Finset.sum_congr rfl h1, Finset.sum_comm, Finset.sum_eq_single M]
  · rw [← Finset.sum_mul, bigD_unitary_rows L alpha beta gamma M M hM hM, if_pos rfl, one_mul]
  · intro M' hM' hne
    rw [Finset.mem_Icc] at hM'
    rw [← Finset.sum_mul, bigD_unitary_rows L alpha beta gamma M' M (by omega) hM, if_neg hne, zero_mul]
  · intro hh; exact absurd (Finset.mem_Icc.2 ⟨by omega, by omega⟩) hh

/-- Rotating after an inner-to-outer translation. -/
theorem rotM_q2Q {LMax : ℕ} (q : Mom LMax) (d : V3) (alpha beta gamma : ℝ) :
    rotM (-alpha) beta (-gamma) (Mom.ofFn LMax (trQ q d)) =
      Mom.ofFn LMax (trQ (rotM alpha beta gamma q) (eul alpha beta gamma d)) := by
  apply Mom.ext_get
  intro l m hl hm
  rw [Mom.get_ofFn _ hl hm]
  by_cases h : m.natAbs ≤ l
  · rw [rotM_get _ _ _ _ _ _ hl h, trQ, if_pos h]
    have e : ∀ a ∈ Finset.Icc (-(l : ℤ)) l,
        bigD l (-alpha) beta (-gamma) m a * (Mom.ofFn LMax (trQ q d)).get l a =
        ∑ k ∈ Finset.range (LMax + 1), ∑ b ∈ Finset.Icc (-(k : ℤ)) k,
          (2 * l + 1) * (-1) ^ k * (bigD l (-alpha) beta (-gamma) m a *
            (fO (l + k) (a + b) d / ((Nlm l a : ℂ) * (Nlm k b : ℂ)))) * q.get k b := by
      intro a ha
      rw [Finset.mem_Icc] at ha
      rw [Mom.get_ofFn _ hl (by omega), trQ, if_pos (by omega), Finset.mul_sum, Finset.mul_sum]
      apply Finset.sum_congr rfl
      intro k _
      rw [Finset.mul_sum, Finset.mul_sum]
      apply Finset.sum_congr rfl
      intro b _
      have := Nlm_ne l a
      have := Nlm_ne k b
      field_simp
    rw [Finset.sum_congr rfl e, Finset.sum_comm, Finset.mul_sum]
    apply Finset.sum_congr rfl
    intro k hk
    rw [Finset.mem_range] at hk
    have e2 : ∀ n ∈ Finset.Icc (-(k : ℤ)) k,
        (-1) ^ k * fO (l + k) (m + n) (eul alpha beta gamma d) *
          ((rotM alpha beta gamma q).get k n / (Nlm k n : ℂ)) =
        ∑ b ∈ Finset.Icc (-(k : ℤ)) k, (-1) ^ k * (Nlm l m : ℂ) *
          (fO (l + k) (m + n) (eul alpha beta gamma d) / ((Nlm l m : ℂ) * (Nlm k n : ℂ)) *
          bigD k alpha beta gamma n b) * q.get k b := by
      intro n hn
      rw [Finset.mem_Icc] at hn
      rw [rotM_get _ _ _ _ _ _ (by omega) (by omega), Finset.sum_div, Finset.mul_sum]
      apply Finset.sum_congr rfl
      intro b _
      have := Nlm_ne l m
      have := Nlm_ne k n
      field_simp
    rw [Finset.sum_congr rfl e2, Finset.sum_comm (s := Finset.Icc (-(l : ℤ)) l),
      Finset.sum_comm (s := Finset.Icc (-(k : ℤ)) k) (t := Finset.Icc (-(k : ℤ)) k), Finset.mul_sum]
    apply Finset.sum_congr rfl
    intro b hb
    rw [Finset.mem_Icc] at hb
    have hc := cov_q2Q l k m b h (by omega) alpha beta gamma d
    rw [← Finset.sum_mul, ← Finset.mul_sum, hc, ← Finset.sum_mul, ← Finset.mul_sum]
    have := Nlm_ne l m
    field_simp
  · rw [rotM, Mom.get_ofFn _ hl hm, if_neg h, Mom.get_ofFn _ hl hm, trQ, if_neg h, trQ, if_neg h]

/-- The Euler angles used by the package bring the translation vector to the z axis. -/
theorem eul_to_z (d : V3) (hd : d ≠ 0) :
    eul (-phiPOf d) (-thetaPOf d) (-phiPOf d) d = ![0, 0, rPOf d] := by
  have h : spherical (rPOf d) (thetaPOf d) (phiPOf d) = d := spherical_coords d hd _ rfl rfl
  set r := rPOf d
  set t := thetaPOf d
  set p := phiPOf d
  rw [← h]
  have h1 := Real.sin_sq_add_cos_sq p
  have h2 := Real.sin_sq_add_cos_sq t
  have e1 : rz (-p) (spherical r t p) = ![r * Real.sin t, 0, r * Real.cos t] := by
    funext i
    fin_cases i <;> simp [rz, spherical]
    · linear_combination (r * Real.sin t) * h1
    · ring
  have e2 : ry (-t) ![r * Real.sin t, 0, r * Real.cos t] = ![0, 0, r] := by
    funext i
    fin_cases i <;> simp [ry]
    · ring
    · linear_combination r * h2
  rw [eul, e1, e2]
  funext i
  fin_cases i <;> simp [rz]

/-- Closed form of the inner-to-outer translation of `newt/translations.py`. -/
theorem translate_q2Q_closed {LMax : ℕ} (q : Mom LMax) (d : V3) (hd : d ≠ 0) :
    translate_q2Q q d = some (Mom.ofFn LMax (trQ q d)) := by
  rw [translate_q2Q]
  simp only [if_neg (fun h => hd ((rPOf_eq_zero d).1 h)), Option.some.injEq]
  apply Mom.ext_get
  intro L M hL hM
  rw [Mom.get_ofFn _ hL hM, Mom.get_ofFn _ hL hM, trQ, Int.abs_eq_natAbs]
  by_cases h : M.natAbs ≤ L
  · rw [if_pos (by omega), if_pos h, Finset.mul_sum]
    apply Finset.sum_congr rfl
    intro k _
    rw [Finset.mul_sum]
    apply Finset.sum_congr rfl
    intro n hn
    rw [Finset.mem_Icc] at hn
    rw [if_pos (by rw [Int.abs_eq_natAbs]; omega)]
    have h3 := outer_coef k L (-n) (M + n) (abs_le.2 ⟨by omega, by omega⟩)
      (abs_le.2 ⟨by push_cast; omega, by push_cast; omega⟩)
      (by rw [show -n + (M + n) = M by ring]; exact abs_le.2 ⟨by omega, by omega⟩)
    rw [show -n + (M + n) = M by ring, Nlm_neg, add_comm k L] at h3
    have h4 := congrArg (starRingEnd ℂ) (sphHarm_dir d hd (L + k) (M + n) (by omega))
    simp only [map_mul, map_pow, Complex.conj_ofReal, Complex.conj_conj] at h4
    have h3c := congrArg (fun x : ℝ => (x : ℂ)) h3
    simp only [Complex.ofReal_mul, neg_one_zpow_cast, Complex.ofReal_add, Complex.ofReal_one,
      Complex.ofReal_ofNat, Complex.ofReal_natCast] at h3c
    rw [fO, ← rPOf_eq]
    have hr : (rPOf d : ℂ) ≠ 0 := by exact_mod_cast (fun h => hd ((rPOf_eq_zero d).1 h))
    have h5 := Nlm_ne L M
    have h6 := Nlm_ne k n
    have h7 : (2 * ((L + k : ℕ) : ℂ) + 1) ≠ 0 := by exact_mod_cast (by omega : 2 * (L + k) + 1 ≠ 0)
    have hY : sphHarm (M + n) (L + k) (phiPOf d) (thetaPOf d) = (Nlm (L + k) (M + n) : ℂ) *
        (starRingEnd ℂ) (Rsol (L + k) (M + n) d) / (rPOf d : ℂ) ^ (L + k) := by
      rw [eq_div_iff (pow_ne_zero _ hr), ← h4]; ring
    have hs : ((-1 : ℂ)) ^ ((k : ℤ) - -n) * (-1) ^ n = (-1) ^ k := by
      rw [← zpow_add₀ (by norm_num), show (k : ℤ) - -n + n = k + 2 * n by ring, zpow_add₀ (by norm_num),
        zpow_mul]
      norm_num
    have hcoef : ((Real.sqrt (4 * Real.pi * Real.exp (gammaln (2 * (L + k) + 1 : ℕ) - gammaln (2 * k + 2) -
        gammaln (2 * L + 1))) : ℝ) : ℂ) * ((cgCoeff k ((L + k : ℕ) : ℤ) (-n) (M + n) L M : ℝ) : ℂ) =
        (-1) ^ ((k : ℤ) - -n) * ((2 * (L : ℂ) + 1) * (Nlm (L + k) (M + n) : ℂ)) /
          ((Nlm k n : ℂ) * (Nlm L M : ℂ) * (2 * ((L + k : ℕ) : ℂ) + 1)) := by
      rw [eq_div_iff (by positivity), ← h3c]
      push_cast
      ring
    have hsplit : (((Real.sqrt (4 * Real.pi * Real.exp (gammaln (2 * (L + k) + 1 : ℕ) - gammaln (2 * k + 2) -
        gammaln (2 * L + 1))) / rPOf d ^ (L + k + 1) * cgCoeff k ((L + k : ℕ) : ℤ) (-n) (M + n) L M *
          (-1) ^ n : ℝ)) : ℂ) = (((Real.sqrt (4 * Real.pi * Real.exp (gammaln (2 * (L + k) + 1 : ℕ) - gammaln (2 * k + 2) -
        gammaln (2 * L + 1))) : ℝ) : ℂ) * ((cgCoeff k ((L + k : ℕ) : ℤ) (-n) (M + n) L M : ℝ) : ℂ)) *
          (-1) ^ n / (rPOf d : ℂ) ^ (L + k + 1) := by
      push_cast; ring
    rw [hsplit, hcoef, hY, ← hs, Complex.ofReal_pow, show 2 * (L + k) + 1 = (L + k) + (L + k + 1) by ring,
      pow_add]
    have := pow_ne_zero (L + k) hr
    have := pow_ne_zero (L + k + 1) hr
    field_simp
    ring
  · rw [if_neg (by omega), if_neg h]

end Newt
