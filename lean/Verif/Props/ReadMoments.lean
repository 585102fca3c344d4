import Verif.Spec.ReadMulti
import Verif.Proofs.TranslationsAlg

/-!
# C41: the moment-file readers
-/

namespace Newt.Multi

open Newt.Spec

theorem triIdx_succ (l : ℕ) : triIdx (l + 1) 0 = triIdx l 0 + (l + 1) := by
  have : (l + 1) * (l + 1 + 1) = l * (l + 1) + (l + 1) * 2 := by ring
  simp only [triIdx, this, add_zero]
  rw [Nat.add_mul_div_right _ _ (by norm_num)]

theorem triIdx_add (l m : ℕ) : triIdx l m = triIdx l 0 + m := by simp [triIdx]

theorem triCount_eq (L : ℕ) : triCount L = triIdx (L + 1) 0 := by simp [triCount, triIdx]

theorem triIdx_mono {l l' : ℕ} (h : l < l') : triIdx l 0 + (l + 1) ≤ triIdx l' 0 := by
  induction l', h using Nat.le_induction with
  | base => rw [triIdx_succ]
  | succ n _ ih => rw [triIdx_succ]; omega

/-- Distinct `(l, m)` have distinct positions. -/
theorem triIdx_inj {l m l' m' : ℕ} (h : m ≤ l) (h' : m' ≤ l') (e : triIdx l m = triIdx l' m') : l = l' ∧ m = m' := by
  rw [triIdx_add, triIdx_add l'] at e
  rcases lt_trichotomy l l' with hl | rfl | hl
  · have := triIdx_mono hl; omega
  · omega
  · have := triIdx_mono hl; omega

theorem triIdx_lt_count {L l m : ℕ} (h : m ≤ l) (hl : l ≤ L) : triIdx l m < triCount L := by
  rw [triCount_eq, triIdx_add]
  have := triIdx_mono (show l < L + 1 by omega)
  omega

theorem put_get {L : ℕ} (q : Mom L) (l : ℕ) (m : ℤ) (v : ℂ) {l' : ℕ} {m' : ℤ} (hl : l' ≤ L) (hm : m'.natAbs ≤ L) :
    (put q l m v).get l' m' = if l' = l ∧ m' = m then v else q.get l' m' := by
  simp only [Mom.get, put, hl, hm, and_self, dite_true]
  have : (((L : ℤ) + m').toNat : ℤ) - L = m' := by omega
  simp only [this]

theorem dataLoop_spec (num : Str → Option ℝ) (L : ℕ) (scale : ℕ → ℝ) (data : List Str) (zs : List ℂ)
    (hd : List.Forall₂ (DataLine num) data zs) :
    ∀ (l m : ℕ) (q : Mom L), m ≤ l → triIdx l m + zs.length ≤ triCount L →
    ∃ q' : Mom L, dataLoop num L scale data l m q = .ok q' ∧
      ∀ (l' : ℕ) (m' : ℤ), l' ≤ L → m'.natAbs ≤ L →
        q'.get l' m' = if 0 ≤ m' ∧ m' ≤ l' ∧ triIdx l m ≤ triIdx l' m'.toNat ∧ triIdx l' m'.toNat < triIdx l m + zs.length
          then zs.getD (triIdx l' m'.toNat - triIdx l m) 0 * ((scale l' : ℝ) : ℂ) else q.get l' m' := by
  induction hd with
  | nil =>
    intro l m q _ _
    refine ⟨q, rfl, fun l' m' _ _ => ?_⟩
    rw [if_neg (by simp only [List.length_nil]; omega)]
  | @cons line z data zs h1 _ ih =>
    intro l m q hm hlen
    rw [List.length_cons] at hlen
    obtain ⟨a, b, tl, hw, ha, hb⟩ := h1
    have hL : l ≤ L := by
      by_contra hcon
      have h2 := triIdx_mono (show L < l by omega)
      rw [triCount_eq, triIdx_succ] at hlen
      rw [triIdx_add] at hlen
      omega
    have hz : ((z.re : ℂ) + Complex.I * z.im) = z := by rw [mul_comm]; exact Complex.re_add_im z
    have key : ∀ (l1 m1 : ℕ), m1 ≤ l1 → triIdx l1 m1 = triIdx l m + 1 →
        dataLoop num L scale (line :: data) l m q =
          dataLoop num L scale data l1 m1 (put q l m (z * ((scale l : ℝ) : ℂ))) →
        ∃ q' : Mom L, dataLoop num L scale (line :: data) l m q = .ok q' ∧
        ∀ (l' : ℕ) (m' : ℤ), l' ≤ L → m'.natAbs ≤ L →
        q'.get l' m' = if 0 ≤ m' ∧ m' ≤ l' ∧ triIdx l m ≤ triIdx l' m'.toNat ∧
            triIdx l' m'.toNat < triIdx l m + (z :: zs).length
          then (z :: zs).getD (triIdx l' m'.toNat - triIdx l m) 0 * ((scale l' : ℝ) : ℂ) else q.get l' m' := by
      intro l1 m1 h11 ht e
      obtain ⟨q', e1, e2⟩ := ih l1 m1 (put q l m (z * ((scale l : ℝ) : ℂ))) h11 (by omega)
      refine ⟨q', e.trans e1, fun l' m' hl' hm' => ?_⟩
      rw [e2 l' m' hl' hm', put_get _ _ _ _ hl' hm', ht, List.length_cons]
      by_cases hc : 0 ≤ m' ∧ m' ≤ l'
      · by_cases hc2 : triIdx l' m'.toNat = triIdx l m
        · obtain ⟨rfl, hmm⟩ := triIdx_inj (by omega) hm hc2
          rw [if_neg (by omega), if_pos (by omega), if_pos (by omega), hc2]
          simp
        · have hne : ¬ (l' = l ∧ m' = m) := by
            rintro ⟨rfl, rfl⟩; exact hc2 (by simp)
          rw [if_neg hne]
          by_cases hc3 : triIdx l m + 1 ≤ triIdx l' m'.toNat ∧ triIdx l' m'.toNat < triIdx l m + 1 + zs.length
          · rw [if_pos (by omega), if_pos (by omega)]
            have : triIdx l' m'.toNat - triIdx l m = (triIdx l' m'.toNat - (triIdx l m + 1)) + 1 := by omega
            rw [this, List.getD_cons_succ]
          · rw [if_neg (by omega), if_neg (by omega)]
      · rw [if_neg (by omega), if_neg (by omega), if_neg (by omega)]
    by_cases hml : l < m + 1
    · have hml' : m = l := by omega
      refine key (l + 1) 0 (by omega) ?_ ?_
      · rw [triIdx_succ, triIdx_add l m]; omega
      · simp only [dataLoop, hw, ha, hb]
        rw [if_neg (by omega : ¬ L < l), if_pos hml, hz]
    · refine key l (m + 1) (by omega) ?_ ?_
      · rw [triIdx_add l (m + 1), triIdx_add l m]; omega
      · simp only [dataLoop, hw, ha, hb]
        rw [if_neg (by omega : ¬ L < l), if_neg hml, hz]

theorem dataLoop_overflow (num : Str → Option ℝ) (L : ℕ) (scale : ℕ → ℝ) (data : List Str) (zs : List ℂ)
    (hd : List.Forall₂ (DataLine num) data zs) :
    ∀ (l m : ℕ) (q : Mom L), m ≤ l → l ≤ L + 1 → (l = L + 1 → m = 0) → triCount L < triIdx l m + zs.length →
    dataLoop num L scale data l m q = .error .indexError := by
  induction hd with
  | nil =>
    intro l m q hm hl hl' hlen
    exfalso
    rw [triCount_eq, List.length_nil] at hlen
    by_cases h : l = L + 1
    · rw [h, hl' h] at hlen; omega
    · have := triIdx_mono (show l < L + 1 by omega)
      rw [triIdx_add l m] at hlen; omega
  | @cons line z data zs h1 _ ih =>
    intro l m q hm hl hl' hlen
    obtain ⟨a, b, tl, hw, ha, hb⟩ := h1
    simp only [dataLoop, hw, ha, hb]
    rw [List.length_cons] at hlen
    split_ifs with h2 h3
    · rfl
    · refine ih _ _ _ (by omega) (by omega) (fun _ => rfl) ?_
      rw [triIdx_succ]; rw [triIdx_add l m] at hlen; omega
    · refine ih _ _ _ (by omega) (by omega) (fun _ => by omega) ?_
      rw [triIdx_add l (m + 1)]; rw [triIdx_add l m] at hlen; omega

theorem header_read (num : Str → Option ℝ) (int : Str → Option ℤ) (scale : ℕ → ℝ) (hdr data : List Str) (L : ℕ)
    (hh : Header int hdr L) :
    readMoments num int scale (hdr ++ data) =
      (dataLoop num L scale data 0 0 (Mom.ofFn L fun _ _ => 0)).bind fun q => .ok ⟨L, q.fillNeg⟩ := by
  obtain ⟨h9, line, w, tl, h1, hw, hi⟩ := hh
  have e0 : ∃ t, (hdr ++ data)[0]? = some t := ⟨hdr[0], by rw [List.getElem?_append_left (by omega)]; simp⟩
  obtain ⟨t, e0⟩ := e0
  have e1 : (hdr ++ data)[1]? = some line := by rw [List.getElem?_append_left (by omega), h1]
  have e9 : (hdr ++ data).drop 9 = data := by rw [← h9, List.drop_left]
  simp only [readMoments, nth, e0, e1, bind, Except.bind, hw, hi]
  rw [if_neg (by omega), e9]
  rfl

/-- What the data of a file mean: entry `(l, m)` for `m >= 0`.  A missing entry is zero; the order
`m = 0` keeps the real part only. -/
noncomputable def entry (zs : List ℂ) (scale : ℕ → ℝ) (l m : ℕ) : ℂ :=
  (if m = 0 then (((zs.getD (triIdx l 0) 0).re : ℝ) : ℂ) else zs.getD (triIdx l m) 0) * ((scale l : ℝ) : ℂ)

theorem readMoments_place (num : Str → Option ℝ) (int : Str → Option ℤ) (scale : ℕ → ℝ) (hdr data : List Str)
    (L : ℕ) (zs : List ℂ) (hh : Header int hdr L) (hd : List.Forall₂ (DataLine num) data zs)
    (hn : zs.length ≤ triCount L) :
    ∃ q : Mom L, readMoments num int scale (hdr ++ data) = .ok ⟨L, q⟩ ∧ Valid q ∧
      ∀ l m : ℕ, l ≤ L → m ≤ l → q.get l m = entry zs scale l m := by
  obtain ⟨q', e1, e2⟩ := dataLoop_spec num L scale data zs hd 0 0 (Mom.ofFn L fun _ _ => 0) le_rfl
    (by simpa [triIdx] using hn)
  have t0 : triIdx 0 0 = 0 := rfl
  have hq : ∀ (l : ℕ) (m : ℤ), l ≤ L → m.natAbs ≤ L → q'.get l m =
      if 0 ≤ m ∧ m ≤ l then zs.getD (triIdx l m.toNat) 0 * ((scale l : ℝ) : ℂ) else 0 := by
    intro l m hl hm
    rw [e2 l m hl hm, t0, Mom.get_ofFn _ hl hm]
    by_cases hc : 0 ≤ m ∧ m ≤ l
    · rw [if_pos hc]
      by_cases hc2 : triIdx l m.toNat < zs.length
      · rw [if_pos (by omega)]; simp
      · rw [if_neg (by omega), show zs.getD (triIdx l m.toNat) 0 = 0 by
          rw [List.getD_eq_getElem?_getD, List.getElem?_eq_none (by omega)]; rfl, zero_mul]
    · rw [if_neg (by omega), if_neg hc]
  have hz : ∀ (l : ℕ) (m : ℤ), l ≤ L → m.natAbs ≤ L → q'.fillNeg.get l m =
      (if m = 0 then entry zs scale l 0 else
      if 0 < m ∧ m ≤ l then entry zs scale l m.toNat else
      if m < 0 ∧ -m ≤ l then (-1) ^ m.natAbs * (starRingEnd ℂ) (entry zs scale l (-m).toNat) else 0) := by
    intro l m hl hm
    rw [Mom.get_fillNeg _ hl hm]
    simp only
    rw [hq l m hl hm, hq l (-m) hl (by omega)]
    by_cases h0 : m = 0
    · subst h0
      rw [if_pos rfl, if_pos rfl, if_pos (by omega)]
      simp only [neg_zero, Int.toNat_zero, entry, if_true]
      rw [if_pos (by omega)]
      rw [map_mul, Complex.conj_ofReal, Int.natAbs_zero, pow_zero, mul_one, ← add_mul, Complex.add_conj]
      push_cast; ring
    · rw [if_neg h0, if_neg h0]
      by_cases hp : 0 < m ∧ m ≤ l
      · rw [if_pos (by omega), if_neg (by omega), if_pos hp, entry, if_neg (by omega)]
        simp
      · rw [if_neg (by omega), if_neg hp]
        by_cases hn : m < 0 ∧ -m ≤ l
        · rw [if_pos (by omega), if_pos hn, entry, if_neg (by omega), zero_add, mul_comm]
        · rw [if_neg (by omega), if_neg hn]; simp
  refine ⟨q'.fillNeg, ?_, ⟨?_, ?_⟩, ?_⟩
  · rw [header_read num int scale hdr data L hh, e1]; rfl
  · intro l m hl hm
    rw [hz l m hl hm, hz l (-m) hl (by omega)]
    by_cases h0 : m = 0
    · subst h0
      simp [entry]
    · rw [if_neg (by omega), if_neg h0]
      by_cases hp : 0 < m ∧ m ≤ l
      · rw [if_neg (by omega), if_pos (by omega), if_pos hp, neg_neg, Int.natAbs_neg]
      · rw [if_neg hp]
        by_cases hn : m < 0 ∧ -m ≤ l
        · rw [if_pos (by omega), if_pos hn, map_mul, Complex.conj_conj, ← mul_assoc]
          have : (starRingEnd ℂ) ((-1 : ℂ) ^ m.natAbs) = (-1) ^ m.natAbs := by simp
          rw [this, ← mul_pow]; simp
        · rw [if_neg (by omega), if_neg (by omega), if_neg hn]; simp
  · intro l m hl hm h
    rw [hz l m hl hm, if_neg (by omega), if_neg (by omega), if_neg (by omega)]
  · intro l m hl hm
    rw [hz l m hl (by omega)]
    by_cases h0 : m = 0
    · subst h0; simp
    · rw [if_neg (by omega), if_pos (by omega), Int.toNat_natCast]

/-- C41: `read_gsq` puts the `k`-th data line at the `(l, m)` of the triangular order, converted from
cgs to SI units, and the result is a valid moment array. -/
theorem C41_gsq (num : Str → Option ℝ) (int : Str → Option ℤ) (hdr data : List Str)
    (L : ℕ) (zs : List ℂ) (hh : Header int hdr L) (hd : List.Forall₂ (DataLine num) data zs)
    (hn : zs.length ≤ triCount L) :
    ∃ q : Mom L, read_gsq num int (hdr ++ data) = .ok ⟨L, q⟩ ∧ Valid q ∧
      ∀ l m : ℕ, l ≤ L → m ≤ l → q.get l m =
        (if m = 0 then (((zs.getD (triIdx l m) 0).re : ℝ) : ℂ) else zs.getD (triIdx l m) 0)
          * (1 / 1000 * (1 / 100) ^ l) := by
  obtain ⟨q, h1, h2, h3⟩ := readMoments_place num int (fun l => 1 / 1000 * (1 / 100) ^ l) hdr data L zs hh hd hn
  refine ⟨q, h1, h2, fun l m hl hm => ?_⟩
  rw [h3 l m hl hm, entry]
  by_cases h : m = 0
  · subst h; push_cast; simp
  · simp [h]

/-- C41: the same for `read_gbq`, without conversion. -/
theorem C41_gbq (num : Str → Option ℝ) (int : Str → Option ℤ) (hdr data : List Str)
    (L : ℕ) (zs : List ℂ) (hh : Header int hdr L) (hd : List.Forall₂ (DataLine num) data zs)
    (hn : zs.length ≤ triCount L) :
    ∃ q : Mom L, read_gbq num int (hdr ++ data) = .ok ⟨L, q⟩ ∧ Valid q ∧
      ∀ l m : ℕ, l ≤ L → m ≤ l → q.get l m =
        (if m = 0 then (((zs.getD (triIdx l m) 0).re : ℝ) : ℂ) else zs.getD (triIdx l m) 0) := by
  obtain ⟨q, h1, h2, h3⟩ := readMoments_place num int (fun _ => 1) hdr data L zs hh hd hn
  refine ⟨q, h1, h2, fun l m hl hm => ?_⟩
  rw [h3 l m hl hm, entry]
  by_cases h : m = 0
  · subst h; simp
  · simp [h]

/-- C41: a file with more data lines than `(l, m)` pairs fails with `IndexError`. -/
theorem C41_too_many (num : Str → Option ℝ) (int : Str → Option ℤ) (hdr data : List Str)
    (L : ℕ) (zs : List ℂ) (hh : Header int hdr L) (hd : List.Forall₂ (DataLine num) data zs)
    (hn : triCount L < zs.length) :
    read_gsq num int (hdr ++ data) = .error .indexError ∧ read_gbq num int (hdr ++ data) = .error .indexError := by
  have e := fun s => dataLoop_overflow num L s data zs hd 0 0 (Mom.ofFn L fun _ _ => 0) le_rfl (by omega) (by simp)
    (by simpa [triIdx] using hn)
  constructor
  · rw [read_gsq, header_read num int _ hdr data L hh, e]; rfl
  · rw [read_gbq, header_read num int _ hdr data L hh, e]; rfl

theorem dataLoop_blank (num : Str → Option ℝ) (L : ℕ) (scale : ℕ → ℝ) (data : List Str) (line : Str)
    (hmem : line ∈ data) (hb : words line = []) :
    ∀ (l m : ℕ) (q : Mom L), ∃ err, dataLoop num L scale data l m q = .error err := by
  induction data with
  | nil => simp at hmem
  | cons d data ih =>
    intro l m q
    rw [dataLoop]
    rcases List.mem_cons.1 hmem with rfl | hmem
    · rw [hb]; exact ⟨_, rfl⟩
    · rcases hw : words d with _ | ⟨a, tl⟩
      · exact ⟨_, rfl⟩
      · simp only
        rcases num a with _ | x
        · exact ⟨_, rfl⟩
        · rcases tl with _ | ⟨b, tl⟩
          · exact ⟨_, rfl⟩
          · simp only
            rcases num b with _ | y
            · exact ⟨_, rfl⟩
            · simp only
              split_ifs
              · exact ⟨_, rfl⟩
              · exact ih hmem _ _ _
              · exact ih hmem _ _ _

/-- C41: a blank line anywhere after the header (say at the end of the file) makes the reader fail. -/
theorem C41_blank_line (num : Str → Option ℝ) (int : Str → Option ℤ) (hdr data : List Str)
    (L : ℕ) (hh : Header int hdr L) (line : Str) (hmem : line ∈ data) (hb : words line = []) :
    (∃ err, read_gsq num int (hdr ++ data) = .error err) ∧ ∃ err, read_gbq num int (hdr ++ data) = .error err := by
  constructor
  · obtain ⟨err, e⟩ := dataLoop_blank num L (fun l => 1 / 1000 * (1 / 100) ^ l) data line hmem hb 0 0 (Mom.ofFn L fun _ _ => 0)
    exact ⟨err, by rw [read_gsq, header_read num int _ hdr data L hh, e]; rfl⟩
  · obtain ⟨err, e⟩ := dataLoop_blank num L (fun _ => 1) data line hmem hb 0 0 (Mom.ofFn L fun _ _ => 0)
    exact ⟨err, by rw [read_gbq, header_read num int _ hdr data L hh, e]; rfl⟩

/-- non-vacuity of C41: a file of degree one with its three data lines (numbers read by their first
character: `1` or anything else for zero). -/
example : ∃ (num : Str → Option ℝ) (int : Str → Option ℤ) (hdr data : List Str) (zs : List ℂ),
    Header int hdr 1 ∧ List.Forall₂ (DataLine num) data zs ∧ zs.length ≤ triCount 1 ∧ zs.length = 3 ∧ zs[2]? = some 1 := by
  refine ⟨fun s => if s = "1.0".toList then some 1 else some 0, fun _ => some 1,
    List.replicate 9 "1 0 0".toList, ["0 0\n".toList, "0 0\n".toList, "1.0 0\n".toList], [0, 0, 1], ?_, ?_, ?_, rfl, rfl⟩
  · exact ⟨rfl, _, "1".toList, ["0".toList, "0".toList], rfl, by decide, rfl⟩
  · refine .cons ⟨"0".toList, "0".toList, [], by decide, ?_, ?_⟩ (.cons ⟨"0".toList, "0".toList, [], by decide, ?_, ?_⟩
      (.cons ⟨"1.0".toList, "0".toList, [], by decide, ?_, ?_⟩ .nil)) <;> simp
  · decide

end Newt.Multi
