import Verif.Proofs.QlmNum
import Verif.Proofs.QlmShapes2
import Verif.Proofs.BigAnnMatch
import Verif.Proofs.MpcShapes
import Verif.Model.QlmACH

/-! # Tables of low-degree moments: assembling them, and the integrals over prisms and cones term by term -/

namespace Newt

open MeasureTheory Finset Spec Qlm

/-- A table agreeing with a family up to degree 5 and empty above. -/
theorem table_eq (LMax : ℕ) (val : ℕ → ℕ → ℂ) (F : ℕ → ℤ → ℂ)
    (hsym : ∀ l m, F l (-m) = (-1) ^ m.natAbs * (starRingEnd ℂ) (F l m))
    (hout : ∀ l (m : ℤ), l < m.natAbs → F l m = 0)
    (h : ∀ l m : ℕ, m ≤ l → l ≤ 5 → val l m = F l m) (h5 : ∀ l m : ℕ, m ≤ l → 5 < l → val l m = 0) :
    QlmACH.table LMax val = Mom.ofFn LMax fun l m => if l ≤ 5 then F l m else 0 := by
  rw [QlmACH.table]
  apply Mom.ext_get
  intro l m hl hm
  rw [Mom.get_ofFn _ hl hm, Mom.get_ofFn _ hl hm, fill_gen _ val (fun l m => if l ≤ 5 then F l m else 0)]
  · rw [Mom.get_ofFn _ (by split_ifs <;> omega) (by split_ifs <;> omega)]
  · intro l m; split_ifs
    · exact hsym l m
    · simp
  · intro l m hm; split_ifs
    · exact hout l m hm
    · rfl
  · intro l m hm _
    split_ifs with h'
    · exact h l m hm h'
    · exact h5 l m hm (by omega)

theorem table_density (LMax : ℕ) (val : ℕ → ℕ → ℂ) (rho : ℝ) (S : Set V3)
    (h : ∀ l m : ℕ, m ≤ l → l ≤ 5 → val l m = densityInner rho S l m) (h5 : ∀ l m : ℕ, m ≤ l → 5 < l → val l m = 0) :
    QlmACH.table LMax val = Mom.ofFn LMax fun l m => if l ≤ 5 then densityInner rho S l m else 0 :=
  table_eq LMax val _ (densityInner_neg rho S) (fun l m hm => densityInner_out rho S l m hm) h h5

/-- Twenty-one cells make a table. -/
theorem cells21 (P : ℕ → ℕ → Prop)
    (h00 : P 0 0) (h10 : P 1 0) (h11 : P 1 1) (h20 : P 2 0) (h21 : P 2 1) (h22 : P 2 2) (h30 : P 3 0) (h31 : P 3 1) (h32 : P 3 2) (h33 : P 3 3) (h40 : P 4 0) (h41 : P 4 1) (h42 : P 4 2) (h43 : P 4 3) (h44 : P 4 4) (h50 : P 5 0) (h51 : P 5 1) (h52 : P 5 2) (h53 : P 5 3) (h54 : P 5 4) (h55 : P 5 5) :
    ∀ l m : ℕ, m ≤ l → l ≤ 5 → P l m := by
  intro l m h1 h2
  interval_cases l <;> interval_cases m <;> assumption

theorem zint_val0 (H : ℝ) : zint H 0 = H := by rw [zint_even H 0 rfl]; push_cast; ring
theorem zint_val2 (H : ℝ) : zint H 2 = H ^ 3 / 12 := by rw [zint_even H 2 rfl]; push_cast; ring
theorem zint_val4 (H : ℝ) : zint H 4 = H ^ 5 / 80 := by rw [zint_even H 4 rfl]; push_cast; ring
theorem zint_val1 (H : ℝ) : zint H 1 = 0 := zint_odd H 1 rfl
theorem zint_val3 (H : ℝ) : zint H 3 = 0 := zint_odd H 3 rfl
theorem zint_val5 (H : ℝ) : zint H 5 = 0 := zint_odd H 5 rfl

theorem prismI_00 (H : ℝ) (hH : 0 < H) (B : Set (ℝ × ℝ)) (hB : IsCompact B) :
    ∫ v in prism H B, solidS 0 ((0 : ℕ) : ℤ) v = (Nlm 0 ((0 : ℕ) : ℤ) : ℂ) * ((1) * (H : ℂ) ^ 1 * pm B 0 0) := by
  rw [prism_int H hH B hB 0 0 (by norm_num)]
  simp only [Nat.reduceSub, Nat.reduceDiv, Nat.reduceAdd, Nat.reduceMul, sum_range_succ, sum_range_zero, zero_add,
    zint_val0, zint_val1, zint_val2, zint_val3, zint_val4, zint_val5]
  simp only [rc]
  norm_num [Nat.factorial]
  try first | done | ring1 | (ring_nf; tauto)
  done

theorem prismI_10 (H : ℝ) (hH : 0 < H) (B : Set (ℝ × ℝ)) (hB : IsCompact B) :
    ∫ v in prism H B, solidS 1 ((0 : ℕ) : ℤ) v = 0 := by
  rw [prism_int H hH B hB 1 0 (by norm_num)]
  simp only [Nat.reduceSub, Nat.reduceDiv, Nat.reduceAdd, Nat.reduceMul, sum_range_succ, sum_range_zero, zero_add,
    zint_val0, zint_val1, zint_val2, zint_val3, zint_val4, zint_val5]
  simp only [rc]
  norm_num [Nat.factorial]
  try first | done | ring1 | (ring_nf; tauto)
  done

theorem prismI_11 (H : ℝ) (hH : 0 < H) (B : Set (ℝ × ℝ)) (hB : IsCompact B) :
    ∫ v in prism H B, solidS 1 ((1 : ℕ) : ℤ) v = (Nlm 1 ((1 : ℕ) : ℤ) : ℂ) * ((-1 / 2) * (H : ℂ) ^ 1 * pm B 1 0) := by
  rw [prism_int H hH B hB 1 1 (by norm_num)]
  simp only [Nat.reduceSub, Nat.reduceDiv, Nat.reduceAdd, Nat.reduceMul, sum_range_succ, sum_range_zero, zero_add,
    zint_val0, zint_val1, zint_val2, zint_val3, zint_val4, zint_val5]
  simp only [rc]
  norm_num [Nat.factorial]
  try first | done | ring1 | (ring_nf; tauto)
  done

theorem prismI_20 (H : ℝ) (hH : 0 < H) (B : Set (ℝ × ℝ)) (hB : IsCompact B) :
    ∫ v in prism H B, solidS 2 ((0 : ℕ) : ℤ) v = (Nlm 2 ((0 : ℕ) : ℤ) : ℂ) * ((1 / 24) * (H : ℂ) ^ 3 * pm B 0 0 + (-1 / 4) * (H : ℂ) ^ 1 * pm B 0 1) := by
  rw [prism_int H hH B hB 2 0 (by norm_num)]
  simp only [Nat.reduceSub, Nat.reduceDiv, Nat.reduceAdd, Nat.reduceMul, sum_range_succ, sum_range_zero, zero_add,
    zint_val0, zint_val1, zint_val2, zint_val3, zint_val4, zint_val5]
  simp only [rc]
  norm_num [Nat.factorial]
  try first | done | ring1 | (ring_nf; tauto)
  done

theorem prismI_21 (H : ℝ) (hH : 0 < H) (B : Set (ℝ × ℝ)) (hB : IsCompact B) :
    ∫ v in prism H B, solidS 2 ((1 : ℕ) : ℤ) v = 0 := by
  rw [prism_int H hH B hB 2 1 (by norm_num)]
  simp only [Nat.reduceSub, Nat.reduceDiv, Nat.reduceAdd, Nat.reduceMul, sum_range_succ, sum_range_zero, zero_add,
    zint_val0, zint_val1, zint_val2, zint_val3, zint_val4, zint_val5]
  simp only [rc]
  norm_num [Nat.factorial]
  try first | done | ring1 | (ring_nf; tauto)
  done

theorem prismI_22 (H : ℝ) (hH : 0 < H) (B : Set (ℝ × ℝ)) (hB : IsCompact B) :
    ∫ v in prism H B, solidS 2 ((2 : ℕ) : ℤ) v = (Nlm 2 ((2 : ℕ) : ℤ) : ℂ) * ((1 / 8) * (H : ℂ) ^ 1 * pm B 2 0) := by
  rw [prism_int H hH B hB 2 2 (by norm_num)]
  simp only [Nat.reduceSub, Nat.reduceDiv, Nat.reduceAdd, Nat.reduceMul, sum_range_succ, sum_range_zero, zero_add,
    zint_val0, zint_val1, zint_val2, zint_val3, zint_val4, zint_val5]
  simp only [rc]
  norm_num [Nat.factorial]
  try first | done | ring1 | (ring_nf; tauto)
  done

theorem prismI_30 (H : ℝ) (hH : 0 < H) (B : Set (ℝ × ℝ)) (hB : IsCompact B) :
    ∫ v in prism H B, solidS 3 ((0 : ℕ) : ℤ) v = 0 := by
  rw [prism_int H hH B hB 3 0 (by norm_num)]
  simp only [Nat.reduceSub, Nat.reduceDiv, Nat.reduceAdd, Nat.reduceMul, sum_range_succ, sum_range_zero, zero_add,
    zint_val0, zint_val1, zint_val2, zint_val3, zint_val4, zint_val5]
  simp only [rc]
  norm_num [Nat.factorial]
  try first | done | ring1 | (ring_nf; tauto)
  done

theorem prismI_31 (H : ℝ) (hH : 0 < H) (B : Set (ℝ × ℝ)) (hB : IsCompact B) :
    ∫ v in prism H B, solidS 3 ((1 : ℕ) : ℤ) v = (Nlm 3 ((1 : ℕ) : ℤ) : ℂ) * ((-1 / 48) * (H : ℂ) ^ 3 * pm B 1 0 + (1 / 16) * (H : ℂ) ^ 1 * pm B 1 1) := by
  rw [prism_int H hH B hB 3 1 (by norm_num)]
  simp only [Nat.reduceSub, Nat.reduceDiv, Nat.reduceAdd, Nat.reduceMul, sum_range_succ, sum_range_zero, zero_add,
    zint_val0, zint_val1, zint_val2, zint_val3, zint_val4, zint_val5]
  simp only [rc]
  norm_num [Nat.factorial]
  try first | done | ring1 | (ring_nf; tauto)
  done

theorem prismI_32 (H : ℝ) (hH : 0 < H) (B : Set (ℝ × ℝ)) (hB : IsCompact B) :
    ∫ v in prism H B, solidS 3 ((2 : ℕ) : ℤ) v = 0 := by
  rw [prism_int H hH B hB 3 2 (by norm_num)]
  simp only [Nat.reduceSub, Nat.reduceDiv, Nat.reduceAdd, Nat.reduceMul, sum_range_succ, sum_range_zero, zero_add,
    zint_val0, zint_val1, zint_val2, zint_val3, zint_val4, zint_val5]
  simp only [rc]
  norm_num [Nat.factorial]
  try first | done | ring1 | (ring_nf; tauto)
  done

theorem prismI_33 (H : ℝ) (hH : 0 < H) (B : Set (ℝ × ℝ)) (hB : IsCompact B) :
    ∫ v in prism H B, solidS 3 ((3 : ℕ) : ℤ) v = (Nlm 3 ((3 : ℕ) : ℤ) : ℂ) * ((-1 / 48) * (H : ℂ) ^ 1 * pm B 3 0) := by
  rw [prism_int H hH B hB 3 3 (by norm_num)]
  simp only [Nat.reduceSub, Nat.reduceDiv, Nat.reduceAdd, Nat.reduceMul, sum_range_succ, sum_range_zero, zero_add,
    zint_val0, zint_val1, zint_val2, zint_val3, zint_val4, zint_val5]
  simp only [rc]
  norm_num [Nat.factorial]
  try first | done | ring1 | (ring_nf; tauto)
  done

theorem prismI_40 (H : ℝ) (hH : 0 < H) (B : Set (ℝ × ℝ)) (hB : IsCompact B) :
    ∫ v in prism H B, solidS 4 ((0 : ℕ) : ℤ) v = (Nlm 4 ((0 : ℕ) : ℤ) : ℂ) * ((1 / 1920) * (H : ℂ) ^ 5 * pm B 0 0 + (-1 / 96) * (H : ℂ) ^ 3 * pm B 0 1 + (1 / 64) * (H : ℂ) ^ 1 * pm B 0 2) := by
  rw [prism_int H hH B hB 4 0 (by norm_num)]
  simp only [Nat.reduceSub, Nat.reduceDiv, Nat.reduceAdd, Nat.reduceMul, sum_range_succ, sum_range_zero, zero_add,
    zint_val0, zint_val1, zint_val2, zint_val3, zint_val4, zint_val5]
  simp only [rc]
  norm_num [Nat.factorial]
  try first | done | ring1 | (ring_nf; tauto)
  done

theorem prismI_41 (H : ℝ) (hH : 0 < H) (B : Set (ℝ × ℝ)) (hB : IsCompact B) :
    ∫ v in prism H B, solidS 4 ((1 : ℕ) : ℤ) v = 0 := by
  rw [prism_int H hH B hB 4 1 (by norm_num)]
  simp only [Nat.reduceSub, Nat.reduceDiv, Nat.reduceAdd, Nat.reduceMul, sum_range_succ, sum_range_zero, zero_add,
    zint_val0, zint_val1, zint_val2, zint_val3, zint_val4, zint_val5]
  simp only [rc]
  norm_num [Nat.factorial]
  try first | done | ring1 | (ring_nf; tauto)
  done

theorem prismI_42 (H : ℝ) (hH : 0 < H) (B : Set (ℝ × ℝ)) (hB : IsCompact B) :
    ∫ v in prism H B, solidS 4 ((2 : ℕ) : ℤ) v = (Nlm 4 ((2 : ℕ) : ℤ) : ℂ) * ((1 / 192) * (H : ℂ) ^ 3 * pm B 2 0 + (-1 / 96) * (H : ℂ) ^ 1 * pm B 2 1) := by
  rw [prism_int H hH B hB 4 2 (by norm_num)]
  simp only [Nat.reduceSub, Nat.reduceDiv, Nat.reduceAdd, Nat.reduceMul, sum_range_succ, sum_range_zero, zero_add,
    zint_val0, zint_val1, zint_val2, zint_val3, zint_val4, zint_val5]
  simp only [rc]
  norm_num [Nat.factorial]
  try first | done | ring1 | (ring_nf; tauto)
  done

theorem prismI_43 (H : ℝ) (hH : 0 < H) (B : Set (ℝ × ℝ)) (hB : IsCompact B) :
    ∫ v in prism H B, solidS 4 ((3 : ℕ) : ℤ) v = 0 := by
  rw [prism_int H hH B hB 4 3 (by norm_num)]
  simp only [Nat.reduceSub, Nat.reduceDiv, Nat.reduceAdd, Nat.reduceMul, sum_range_succ, sum_range_zero, zero_add,
    zint_val0, zint_val1, zint_val2, zint_val3, zint_val4, zint_val5]
  simp only [rc]
  norm_num [Nat.factorial]
  try first | done | ring1 | (ring_nf; tauto)
  done

theorem prismI_44 (H : ℝ) (hH : 0 < H) (B : Set (ℝ × ℝ)) (hB : IsCompact B) :
    ∫ v in prism H B, solidS 4 ((4 : ℕ) : ℤ) v = (Nlm 4 ((4 : ℕ) : ℤ) : ℂ) * ((1 / 384) * (H : ℂ) ^ 1 * pm B 4 0) := by
  rw [prism_int H hH B hB 4 4 (by norm_num)]
  simp only [Nat.reduceSub, Nat.reduceDiv, Nat.reduceAdd, Nat.reduceMul, sum_range_succ, sum_range_zero, zero_add,
    zint_val0, zint_val1, zint_val2, zint_val3, zint_val4, zint_val5]
  simp only [rc]
  norm_num [Nat.factorial]
  try first | done | ring1 | (ring_nf; tauto)
  done

theorem prismI_50 (H : ℝ) (hH : 0 < H) (B : Set (ℝ × ℝ)) (hB : IsCompact B) :
    ∫ v in prism H B, solidS 5 ((0 : ℕ) : ℤ) v = 0 := by
  rw [prism_int H hH B hB 5 0 (by norm_num)]
  simp only [Nat.reduceSub, Nat.reduceDiv, Nat.reduceAdd, Nat.reduceMul, sum_range_succ, sum_range_zero, zero_add,
    zint_val0, zint_val1, zint_val2, zint_val3, zint_val4, zint_val5]
  simp only [rc]
  norm_num [Nat.factorial]
  try first | done | ring1 | (ring_nf; tauto)
  done

theorem prismI_51 (H : ℝ) (hH : 0 < H) (B : Set (ℝ × ℝ)) (hB : IsCompact B) :
    ∫ v in prism H B, solidS 5 ((1 : ℕ) : ℤ) v = (Nlm 5 ((1 : ℕ) : ℤ) : ℂ) * ((-1 / 3840) * (H : ℂ) ^ 5 * pm B 1 0 + (1 / 384) * (H : ℂ) ^ 3 * pm B 1 1 + (-1 / 384) * (H : ℂ) ^ 1 * pm B 1 2) := by
  rw [prism_int H hH B hB 5 1 (by norm_num)]
  simp only [Nat.reduceSub, Nat.reduceDiv, Nat.reduceAdd, Nat.reduceMul, sum_range_succ, sum_range_zero, zero_add,
    zint_val0, zint_val1, zint_val2, zint_val3, zint_val4, zint_val5]
  simp only [rc]
  norm_num [Nat.factorial]
  try first | done | ring1 | (ring_nf; tauto)
  done

theorem prismI_52 (H : ℝ) (hH : 0 < H) (B : Set (ℝ × ℝ)) (hB : IsCompact B) :
    ∫ v in prism H B, solidS 5 ((2 : ℕ) : ℤ) v = 0 := by
  rw [prism_int H hH B hB 5 2 (by norm_num)]
  simp only [Nat.reduceSub, Nat.reduceDiv, Nat.reduceAdd, Nat.reduceMul, sum_range_succ, sum_range_zero, zero_add,
    zint_val0, zint_val1, zint_val2, zint_val3, zint_val4, zint_val5]
  simp only [rc]
  norm_num [Nat.factorial]
  try first | done | ring1 | (ring_nf; tauto)
  done

theorem prismI_53 (H : ℝ) (hH : 0 < H) (B : Set (ℝ × ℝ)) (hB : IsCompact B) :
    ∫ v in prism H B, solidS 5 ((3 : ℕ) : ℤ) v = (Nlm 5 ((3 : ℕ) : ℤ) : ℂ) * ((-1 / 1152) * (H : ℂ) ^ 3 * pm B 3 0 + (1 / 768) * (H : ℂ) ^ 1 * pm B 3 1) := by
  rw [prism_int H hH B hB 5 3 (by norm_num)]
  simp only [Nat.reduceSub, Nat.reduceDiv, Nat.reduceAdd, Nat.reduceMul, sum_range_succ, sum_range_zero, zero_add,
    zint_val0, zint_val1, zint_val2, zint_val3, zint_val4, zint_val5]
  simp only [rc]
  norm_num [Nat.factorial]
  try first | done | ring1 | (ring_nf; tauto)
  done

theorem prismI_54 (H : ℝ) (hH : 0 < H) (B : Set (ℝ × ℝ)) (hB : IsCompact B) :
    ∫ v in prism H B, solidS 5 ((4 : ℕ) : ℤ) v = 0 := by
  rw [prism_int H hH B hB 5 4 (by norm_num)]
  simp only [Nat.reduceSub, Nat.reduceDiv, Nat.reduceAdd, Nat.reduceMul, sum_range_succ, sum_range_zero, zero_add,
    zint_val0, zint_val1, zint_val2, zint_val3, zint_val4, zint_val5]
  simp only [rc]
  norm_num [Nat.factorial]
  try first | done | ring1 | (ring_nf; tauto)
  done

theorem prismI_55 (H : ℝ) (hH : 0 < H) (B : Set (ℝ × ℝ)) (hB : IsCompact B) :
    ∫ v in prism H B, solidS 5 ((5 : ℕ) : ℤ) v = (Nlm 5 ((5 : ℕ) : ℤ) : ℂ) * ((-1 / 3840) * (H : ℂ) ^ 1 * pm B 5 0) := by
  rw [prism_int H hH B hB 5 5 (by norm_num)]
  simp only [Nat.reduceSub, Nat.reduceDiv, Nat.reduceAdd, Nat.reduceMul, sum_range_succ, sum_range_zero, zero_add,
    zint_val0, zint_val1, zint_val2, zint_val3, zint_val4, zint_val5]
  simp only [rc]
  norm_num [Nat.factorial]
  try first | done | ring1 | (ring_nf; tauto)
  done

theorem coneI_00 (P : ℝ) (hP : 0 < P) (B : Set (ℝ × ℝ)) (hB : IsCompact B) :
    ∫ v in coneOver P B, solidS 0 ((0 : ℕ) : ℤ) v = (Nlm 0 ((0 : ℕ) : ℤ) : ℂ) * ((1 / 3) * (P : ℂ) ^ 1 * pm B 0 0) := by
  rw [cone_int P hP B hB 0 0 (by norm_num)]
  simp only [Nat.reduceSub, Nat.reduceDiv, Nat.reduceAdd, Nat.reduceMul, sum_range_succ, sum_range_zero, zero_add,
    bint_eq P hP]
  simp only [rc]
  norm_num [Nat.factorial]
  try first | done | ring1 | (ring_nf; tauto)
  done

theorem coneI_10 (P : ℝ) (hP : 0 < P) (B : Set (ℝ × ℝ)) (hB : IsCompact B) :
    ∫ v in coneOver P B, solidS 1 ((0 : ℕ) : ℤ) v = (Nlm 1 ((0 : ℕ) : ℤ) : ℂ) * ((1 / 12) * (P : ℂ) ^ 2 * pm B 0 0) := by
  rw [cone_int P hP B hB 1 0 (by norm_num)]
  simp only [Nat.reduceSub, Nat.reduceDiv, Nat.reduceAdd, Nat.reduceMul, sum_range_succ, sum_range_zero, zero_add,
    bint_eq P hP]
  simp only [rc]
  norm_num [Nat.factorial]
  try first | done | ring1 | (ring_nf; tauto)
  done

theorem coneI_11 (P : ℝ) (hP : 0 < P) (B : Set (ℝ × ℝ)) (hB : IsCompact B) :
    ∫ v in coneOver P B, solidS 1 ((1 : ℕ) : ℤ) v = (Nlm 1 ((1 : ℕ) : ℤ) : ℂ) * ((-1 / 8) * (P : ℂ) ^ 1 * pm B 1 0) := by
  rw [cone_int P hP B hB 1 1 (by norm_num)]
  simp only [Nat.reduceSub, Nat.reduceDiv, Nat.reduceAdd, Nat.reduceMul, sum_range_succ, sum_range_zero, zero_add,
    bint_eq P hP]
  simp only [rc]
  norm_num [Nat.factorial]
  try first | done | ring1 | (ring_nf; tauto)
  done

theorem coneI_20 (P : ℝ) (hP : 0 < P) (B : Set (ℝ × ℝ)) (hB : IsCompact B) :
    ∫ v in coneOver P B, solidS 2 ((0 : ℕ) : ℤ) v = (Nlm 2 ((0 : ℕ) : ℤ) : ℂ) * ((1 / 60) * (P : ℂ) ^ 3 * pm B 0 0 + (-1 / 20) * (P : ℂ) ^ 1 * pm B 0 1) := by
  rw [cone_int P hP B hB 2 0 (by norm_num)]
  simp only [Nat.reduceSub, Nat.reduceDiv, Nat.reduceAdd, Nat.reduceMul, sum_range_succ, sum_range_zero, zero_add,
    bint_eq P hP]
  simp only [rc]
  norm_num [Nat.factorial]
  try first | done | ring1 | (ring_nf; tauto)
  done

theorem coneI_21 (P : ℝ) (hP : 0 < P) (B : Set (ℝ × ℝ)) (hB : IsCompact B) :
    ∫ v in coneOver P B, solidS 2 ((1 : ℕ) : ℤ) v = (Nlm 2 ((1 : ℕ) : ℤ) : ℂ) * ((-1 / 40) * (P : ℂ) ^ 2 * pm B 1 0) := by
  rw [cone_int P hP B hB 2 1 (by norm_num)]
  simp only [Nat.reduceSub, Nat.reduceDiv, Nat.reduceAdd, Nat.reduceMul, sum_range_succ, sum_range_zero, zero_add,
    bint_eq P hP]
  simp only [rc]
  norm_num [Nat.factorial]
  try first | done | ring1 | (ring_nf; tauto)
  done

theorem coneI_22 (P : ℝ) (hP : 0 < P) (B : Set (ℝ × ℝ)) (hB : IsCompact B) :
    ∫ v in coneOver P B, solidS 2 ((2 : ℕ) : ℤ) v = (Nlm 2 ((2 : ℕ) : ℤ) : ℂ) * ((1 / 40) * (P : ℂ) ^ 1 * pm B 2 0) := by
  rw [cone_int P hP B hB 2 2 (by norm_num)]
  simp only [Nat.reduceSub, Nat.reduceDiv, Nat.reduceAdd, Nat.reduceMul, sum_range_succ, sum_range_zero, zero_add,
    bint_eq P hP]
  simp only [rc]
  norm_num [Nat.factorial]
  try first | done | ring1 | (ring_nf; tauto)
  done

theorem coneI_30 (P : ℝ) (hP : 0 < P) (B : Set (ℝ × ℝ)) (hB : IsCompact B) :
    ∫ v in coneOver P B, solidS 3 ((0 : ℕ) : ℤ) v = (Nlm 3 ((0 : ℕ) : ℤ) : ℂ) * ((1 / 360) * (P : ℂ) ^ 4 * pm B 0 0 + (-1 / 120) * (P : ℂ) ^ 2 * pm B 0 1) := by
  rw [cone_int P hP B hB 3 0 (by norm_num)]
  simp only [Nat.reduceSub, Nat.reduceDiv, Nat.reduceAdd, Nat.reduceMul, sum_range_succ, sum_range_zero, zero_add,
    bint_eq P hP]
  simp only [rc]
  norm_num [Nat.factorial]
  try first | done | ring1 | (ring_nf; tauto)
  done

theorem coneI_31 (P : ℝ) (hP : 0 < P) (B : Set (ℝ × ℝ)) (hB : IsCompact B) :
    ∫ v in coneOver P B, solidS 3 ((1 : ℕ) : ℤ) v = (Nlm 3 ((1 : ℕ) : ℤ) : ℂ) * ((-1 / 240) * (P : ℂ) ^ 3 * pm B 1 0 + (1 / 96) * (P : ℂ) ^ 1 * pm B 1 1) := by
  rw [cone_int P hP B hB 3 1 (by norm_num)]
  simp only [Nat.reduceSub, Nat.reduceDiv, Nat.reduceAdd, Nat.reduceMul, sum_range_succ, sum_range_zero, zero_add,
    bint_eq P hP]
  simp only [rc]
  norm_num [Nat.factorial]
  try first | done | ring1 | (ring_nf; tauto)
  done

theorem coneI_32 (P : ℝ) (hP : 0 < P) (B : Set (ℝ × ℝ)) (hB : IsCompact B) :
    ∫ v in coneOver P B, solidS 3 ((2 : ℕ) : ℤ) v = (Nlm 3 ((2 : ℕ) : ℤ) : ℂ) * ((1 / 240) * (P : ℂ) ^ 2 * pm B 2 0) := by
  rw [cone_int P hP B hB 3 2 (by norm_num)]
  simp only [Nat.reduceSub, Nat.reduceDiv, Nat.reduceAdd, Nat.reduceMul, sum_range_succ, sum_range_zero, zero_add,
    bint_eq P hP]
  simp only [rc]
  norm_num [Nat.factorial]
  try first | done | ring1 | (ring_nf; tauto)
  done

theorem coneI_33 (P : ℝ) (hP : 0 < P) (B : Set (ℝ × ℝ)) (hB : IsCompact B) :
    ∫ v in coneOver P B, solidS 3 ((3 : ℕ) : ℤ) v = (Nlm 3 ((3 : ℕ) : ℤ) : ℂ) * ((-1 / 288) * (P : ℂ) ^ 1 * pm B 3 0) := by
  rw [cone_int P hP B hB 3 3 (by norm_num)]
  simp only [Nat.reduceSub, Nat.reduceDiv, Nat.reduceAdd, Nat.reduceMul, sum_range_succ, sum_range_zero, zero_add,
    bint_eq P hP]
  simp only [rc]
  norm_num [Nat.factorial]
  try first | done | ring1 | (ring_nf; tauto)
  done

theorem coneI_40 (P : ℝ) (hP : 0 < P) (B : Set (ℝ × ℝ)) (hB : IsCompact B) :
    ∫ v in coneOver P B, solidS 4 ((0 : ℕ) : ℤ) v = (Nlm 4 ((0 : ℕ) : ℤ) : ℂ) * ((1 / 2520) * (P : ℂ) ^ 5 * pm B 0 0 + (-1 / 840) * (P : ℂ) ^ 3 * pm B 0 1 + (1 / 448) * (P : ℂ) ^ 1 * pm B 0 2) := by
  rw [cone_int P hP B hB 4 0 (by norm_num)]
  simp only [Nat.reduceSub, Nat.reduceDiv, Nat.reduceAdd, Nat.reduceMul, sum_range_succ, sum_range_zero, zero_add,
    bint_eq P hP]
  simp only [rc]
  norm_num [Nat.factorial]
  try first | done | ring1 | (ring_nf; tauto)
  done

theorem coneI_41 (P : ℝ) (hP : 0 < P) (B : Set (ℝ × ℝ)) (hB : IsCompact B) :
    ∫ v in coneOver P B, solidS 4 ((1 : ℕ) : ℤ) v = (Nlm 4 ((1 : ℕ) : ℤ) : ℂ) * ((-1 / 1680) * (P : ℂ) ^ 4 * pm B 1 0 + (1 / 672) * (P : ℂ) ^ 2 * pm B 1 1) := by
  rw [cone_int P hP B hB 4 1 (by norm_num)]
  simp only [Nat.reduceSub, Nat.reduceDiv, Nat.reduceAdd, Nat.reduceMul, sum_range_succ, sum_range_zero, zero_add,
    bint_eq P hP]
  simp only [rc]
  norm_num [Nat.factorial]
  try first | done | ring1 | (ring_nf; tauto)
  done

theorem coneI_42 (P : ℝ) (hP : 0 < P) (B : Set (ℝ × ℝ)) (hB : IsCompact B) :
    ∫ v in coneOver P B, solidS 4 ((2 : ℕ) : ℤ) v = (Nlm 4 ((2 : ℕ) : ℤ) : ℂ) * ((1 / 1680) * (P : ℂ) ^ 3 * pm B 2 0 + (-1 / 672) * (P : ℂ) ^ 1 * pm B 2 1) := by
  rw [cone_int P hP B hB 4 2 (by norm_num)]
  simp only [Nat.reduceSub, Nat.reduceDiv, Nat.reduceAdd, Nat.reduceMul, sum_range_succ, sum_range_zero, zero_add,
    bint_eq P hP]
  simp only [rc]
  norm_num [Nat.factorial]
  try first | done | ring1 | (ring_nf; tauto)
  done

theorem coneI_43 (P : ℝ) (hP : 0 < P) (B : Set (ℝ × ℝ)) (hB : IsCompact B) :
    ∫ v in coneOver P B, solidS 4 ((3 : ℕ) : ℤ) v = (Nlm 4 ((3 : ℕ) : ℤ) : ℂ) * ((-1 / 2016) * (P : ℂ) ^ 2 * pm B 3 0) := by
  rw [cone_int P hP B hB 4 3 (by norm_num)]
  simp only [Nat.reduceSub, Nat.reduceDiv, Nat.reduceAdd, Nat.reduceMul, sum_range_succ, sum_range_zero, zero_add,
    bint_eq P hP]
  simp only [rc]
  norm_num [Nat.factorial]
  try first | done | ring1 | (ring_nf; tauto)
  done

theorem coneI_44 (P : ℝ) (hP : 0 < P) (B : Set (ℝ × ℝ)) (hB : IsCompact B) :
    ∫ v in coneOver P B, solidS 4 ((4 : ℕ) : ℤ) v = (Nlm 4 ((4 : ℕ) : ℤ) : ℂ) * ((1 / 2688) * (P : ℂ) ^ 1 * pm B 4 0) := by
  rw [cone_int P hP B hB 4 4 (by norm_num)]
  simp only [Nat.reduceSub, Nat.reduceDiv, Nat.reduceAdd, Nat.reduceMul, sum_range_succ, sum_range_zero, zero_add,
    bint_eq P hP]
  simp only [rc]
  norm_num [Nat.factorial]
  try first | done | ring1 | (ring_nf; tauto)
  done

theorem coneI_50 (P : ℝ) (hP : 0 < P) (B : Set (ℝ × ℝ)) (hB : IsCompact B) :
    ∫ v in coneOver P B, solidS 5 ((0 : ℕ) : ℤ) v = (Nlm 5 ((0 : ℕ) : ℤ) : ℂ) * ((1 / 20160) * (P : ℂ) ^ 6 * pm B 0 0 + (-1 / 6720) * (P : ℂ) ^ 4 * pm B 0 1 + (1 / 3584) * (P : ℂ) ^ 2 * pm B 0 2) := by
  rw [cone_int P hP B hB 5 0 (by norm_num)]
  simp only [Nat.reduceSub, Nat.reduceDiv, Nat.reduceAdd, Nat.reduceMul, sum_range_succ, sum_range_zero, zero_add,
    bint_eq P hP]
  simp only [rc]
  norm_num [Nat.factorial]
  try first | done | ring1 | (ring_nf; tauto)
  done

theorem coneI_51 (P : ℝ) (hP : 0 < P) (B : Set (ℝ × ℝ)) (hB : IsCompact B) :
    ∫ v in coneOver P B, solidS 5 ((1 : ℕ) : ℤ) v = (Nlm 5 ((1 : ℕ) : ℤ) : ℂ) * ((-1 / 13440) * (P : ℂ) ^ 5 * pm B 1 0 + (1 / 5376) * (P : ℂ) ^ 3 * pm B 1 1 + (-1 / 3072) * (P : ℂ) ^ 1 * pm B 1 2) := by
  rw [cone_int P hP B hB 5 1 (by norm_num)]
  simp only [Nat.reduceSub, Nat.reduceDiv, Nat.reduceAdd, Nat.reduceMul, sum_range_succ, sum_range_zero, zero_add,
    bint_eq P hP]
  simp only [rc]
  norm_num [Nat.factorial]
  try first | done | ring1 | (ring_nf; tauto)
  done

theorem coneI_52 (P : ℝ) (hP : 0 < P) (B : Set (ℝ × ℝ)) (hB : IsCompact B) :
    ∫ v in coneOver P B, solidS 5 ((2 : ℕ) : ℤ) v = (Nlm 5 ((2 : ℕ) : ℤ) : ℂ) * ((1 / 13440) * (P : ℂ) ^ 4 * pm B 2 0 + (-1 / 5376) * (P : ℂ) ^ 2 * pm B 2 1) := by
  rw [cone_int P hP B hB 5 2 (by norm_num)]
  simp only [Nat.reduceSub, Nat.reduceDiv, Nat.reduceAdd, Nat.reduceMul, sum_range_succ, sum_range_zero, zero_add,
    bint_eq P hP]
  simp only [rc]
  norm_num [Nat.factorial]
  try first | done | ring1 | (ring_nf; tauto)
  done

theorem coneI_53 (P : ℝ) (hP : 0 < P) (B : Set (ℝ × ℝ)) (hB : IsCompact B) :
    ∫ v in coneOver P B, solidS 5 ((3 : ℕ) : ℤ) v = (Nlm 5 ((3 : ℕ) : ℤ) : ℂ) * ((-1 / 16128) * (P : ℂ) ^ 3 * pm B 3 0 + (1 / 6144) * (P : ℂ) ^ 1 * pm B 3 1) := by
  rw [cone_int P hP B hB 5 3 (by norm_num)]
  simp only [Nat.reduceSub, Nat.reduceDiv, Nat.reduceAdd, Nat.reduceMul, sum_range_succ, sum_range_zero, zero_add,
    bint_eq P hP]
  simp only [rc]
  norm_num [Nat.factorial]
  try first | done | ring1 | (ring_nf; tauto)
  done

theorem coneI_54 (P : ℝ) (hP : 0 < P) (B : Set (ℝ × ℝ)) (hB : IsCompact B) :
    ∫ v in coneOver P B, solidS 5 ((4 : ℕ) : ℤ) v = (Nlm 5 ((4 : ℕ) : ℤ) : ℂ) * ((1 / 21504) * (P : ℂ) ^ 2 * pm B 4 0) := by
  rw [cone_int P hP B hB 5 4 (by norm_num)]
  simp only [Nat.reduceSub, Nat.reduceDiv, Nat.reduceAdd, Nat.reduceMul, sum_range_succ, sum_range_zero, zero_add,
    bint_eq P hP]
  simp only [rc]
  norm_num [Nat.factorial]
  try first | done | ring1 | (ring_nf; tauto)
  done

theorem coneI_55 (P : ℝ) (hP : 0 < P) (B : Set (ℝ × ℝ)) (hB : IsCompact B) :
    ∫ v in coneOver P B, solidS 5 ((5 : ℕ) : ℤ) v = (Nlm 5 ((5 : ℕ) : ℤ) : ℂ) * ((-1 / 30720) * (P : ℂ) ^ 1 * pm B 5 0) := by
  rw [cone_int P hP B hB 5 5 (by norm_num)]
  simp only [Nat.reduceSub, Nat.reduceDiv, Nat.reduceAdd, Nat.reduceMul, sum_range_succ, sum_range_zero, zero_add,
    bint_eq P hP]
  simp only [rc]
  norm_num [Nat.factorial]
  try first | done | ring1 | (ring_nf; tauto)
  done

/-! ## Normalisations -/

theorem Nlm_sq (l m : ℕ) (c : ℝ) (hm : m ≤ l) (hc : 0 ≤ c)
    (h : c ^ 2 * Real.pi = (2 * l + 1) / 4 * ((l + m).factorial * (l - m).factorial)) : Nlm l m = c := by
  have hp := Real.pi_pos
  rw [Nlm, show ((l : ℤ) + (m : ℤ)).toNat = l + m by omega, show ((l : ℤ) - (m : ℤ)).toNat = l - m by omega,
    ← Real.sqrt_sq hc]
  congr 1
  rw [eq_comm, ← mul_right_cancel_iff_of_pos hp, h]
  field_simp

theorem sqrt_four_pi : Real.sqrt (4 * Real.pi) = 2 * Real.sqrt Real.pi := sqrt_scale _ _ _ (by norm_num) (by ring)

theorem sqrt_cast_ne (a : ℝ) (ha : 0 < a) : ((Real.sqrt a : ℝ) : ℂ) ≠ 0 := by
  exact_mod_cast (Real.sqrt_pos.2 ha).ne'

theorem sqrt_pi_ne : ((Real.sqrt Real.pi : ℝ) : ℂ) ≠ 0 := sqrt_cast_ne _ Real.pi_pos

theorem Ipow5 : Complex.I ^ 5 = Complex.I := by
  rw [show (5 : ℕ) = 4 + 1 by norm_num, pow_succ, Complex.I_pow_four, one_mul]

end Newt
