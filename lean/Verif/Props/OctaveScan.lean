import Verif.Props.OctaveShapes

/-!
# C95: levelling a surface scan (`matlab-src/scanCenterAndRemoveLinear.m`)
-/

namespace Newt

/-- The sum of a function over the rows. -/
noncomputable def rowSum (d : List V3) (f : V3 → ℝ) : ℝ := (d.map f).sum

theorem rowSum_add (d : List V3) (f g : V3 → ℝ) : rowSum d (fun v => f v + g v) = rowSum d f + rowSum d g := by
  simp only [rowSum, List.sum_map_add]

theorem rowSum_sub (d : List V3) (f g : V3 → ℝ) : rowSum d (fun v => f v - g v) = rowSum d f - rowSum d g := by
  induction d with
  | nil => simp [rowSum]
  | cons a d ih => simp only [rowSum, List.map_cons, List.sum_cons] at ih ⊢; rw [ih]; ring

theorem rowSum_mul (d : List V3) (c : ℝ) (f : V3 → ℝ) : rowSum d (fun v => c * f v) = c * rowSum d f := by
  simp only [rowSum, List.sum_map_mul_left]

theorem rowSum_const (d : List V3) (c : ℝ) : rowSum d (fun _ => c) = d.length * c := by
  simp [rowSum]

theorem rowSum_map (d : List V3) (g : V3 → V3) (f : V3 → ℝ) : rowSum (d.map g) f = rowSum d (fun v => f (g v)) := by
  simp only [rowSum, List.map_map]; rfl

theorem rowSum_congr (d : List V3) {f g : V3 → ℝ} (h : ∀ v, f v = g v) : rowSum d f = rowSum d g := by
  rw [funext h]

theorem rowSum_nonneg (d : List V3) (f : V3 → ℝ) (h : ∀ v, 0 ≤ f v) : 0 ≤ rowSum d f :=
  List.sum_nonneg fun x hx => by obtain ⟨v, -, rfl⟩ := List.mem_map.1 hx; exact h v

theorem rowSum_sq_zero (d : List V3) (f : V3 → ℝ) (h : rowSum d (fun v => f v ^ 2) = 0) : ∀ v ∈ d, f v = 0 := by
  induction d with
  | nil => simp
  | cons a d ih =>
    simp only [rowSum, List.map_cons, List.sum_cons] at h ih
    have h1 := rowSum_nonneg d (fun v => f v ^ 2) fun v => sq_nonneg _
    rw [rowSum] at h1
    have h2 := sq_nonneg (f a)
    have h3 : f a ^ 2 = 0 := by linarith
    intro v hv
    rcases List.mem_cons.1 hv with rfl | hv
    · exact pow_eq_zero_iff two_ne_zero |>.1 h3
    · exact ih (by linarith) v hv

/-- The data of the fit, in a form free of list operations. -/
structure ScanFit (d : List V3) (mx my b1 b2 mz : ℝ) : Prop where
  x : rowSum d (fun v => v 0 - mx) = 0
  y : rowSum d (fun v => v 1 - my) = 0
  z : rowSum d (fun v => v 2 - ((v 0 - mx) * b1 + (v 1 - my) * b2) - mz) = 0
  xz : rowSum d (fun v => (v 0 - mx) * (v 2 - ((v 0 - mx) * b1 + (v 1 - my) * b2) - mz)) = 0
  yz : rowSum d (fun v => (v 1 - my) * (v 2 - ((v 0 - mx) * b1 + (v 1 - my) * b2) - mz)) = 0

/-- The row that `scanCenterAndRemoveLinear` returns for a row. -/
noncomputable def scanRow (mx my b1 b2 mz : ℝ) (v : V3) : V3 :=
  (1e-3 : ℝ) • ![v 0 - mx, v 1 - my, v 2 - ((v 0 - mx) * b1 + (v 1 - my) * b2) - mz]

theorem mean_zero {d : List V3} (hd : d ≠ []) (f : V3 → ℝ) : rowSum d (fun v => f v - rowSum d f / d.length) = 0 := by
  have : (d.length : ℝ) ≠ 0 := by exact_mod_cast fun h => hd (List.length_eq_zero_iff.1 h)
  rw [rowSum_sub, rowSum_const]; field_simp; ring

/-- A scan with at least one point: the result, with coefficients that solve the normal equations. -/
theorem scan_fit {d : List V3} (hd : d ≠ []) : ∃ mx my b1 b2 mz, ScanFit d mx my b1 b2 mz ∧
    Oct.scanCenterAndRemoveLinear d = d.map (scanRow mx my b1 b2 mz) := by
  set mx := rowSum d (fun v => v 0) / d.length with hmx
  set my := rowSum d (fun v => v 1) / d.length with hmy
  set sxx := rowSum d (fun v => (v 0 - mx) * (v 0 - mx)) with hsxx
  set syy := rowSum d (fun v => (v 1 - my) * (v 1 - my)) with hsyy
  set sxy := rowSum d (fun v => (v 0 - mx) * (v 1 - my)) with hsxy
  set sxz := rowSum d (fun v => (v 0 - mx) * v 2) with hsxz
  set syz := rowSum d (fun v => (v 1 - my) * v 2) with hsyz
  set b := Oct.ols (d.map fun v => ![v 0 - mx, v 1 - my, v 2]) with hb
  have eb : b = if sxx * syy - sxy * sxy ≠ 0 then ((syy * sxz - sxy * syz) / (sxx * syy - sxy * sxy),
        (sxx * syz - sxy * sxz) / (sxx * syy - sxy * sxy))
      else if sxx + syy ≠ 0 then ((sxx * sxz + sxy * syz) / (sxx + syy) ^ 2, (sxy * sxz + syy * syz) / (sxx + syy) ^ 2)
      else (0, 0) := by
    rw [hb, Oct.ols]
    simp only [List.map_map, Function.comp_def, Matrix.cons_val]
    rfl
  have hx : rowSum d (fun v => v 0 - mx) = 0 := mean_zero hd _
  have hy : rowSum d (fun v => v 1 - my) = 0 := mean_zero hd _
  have key : sxx * b.1 + sxy * b.2 = sxz ∧ sxy * b.1 + syy * b.2 = syz := by
    by_cases hdet : sxx * syy - sxy * sxy = 0
    · -- the rows are proportional
      have hquad : ∀ p q : ℝ, p ^ 2 * sxx + 2 * p * q * sxy + q ^ 2 * syy = 0 → p * sxz + q * syz = 0 := by
        intro p q h
        have e : rowSum d (fun v => (p * (v 0 - mx) + q * (v 1 - my)) ^ 2) = 0 := by
          rw [rowSum_congr d (g := fun v => (p ^ 2 * ((v 0 - mx) * (v 0 - mx)) + 2 * p * q * ((v 0 - mx) * (v 1 - my)))
            + q ^ 2 * ((v 1 - my) * (v 1 - my))) fun v => by ring]
          rw [rowSum_add, rowSum_add, rowSum_mul, rowSum_mul, rowSum_mul]
          exact h
        have e' := rowSum_sq_zero d _ e
        rw [hsxz, hsyz, ← rowSum_mul, ← rowSum_mul, ← rowSum_add]
        rw [rowSum, List.map_congr_left (g := fun _ => (0 : ℝ)) fun v hv => by linear_combination v 2 * e' v hv]
        simp
      have a1 : syy * sxz - sxy * syz = 0 := by
        have := hquad syy (-sxy) (by linear_combination syy * hdet)
        linarith
      have a2 : sxx * syz - sxy * sxz = 0 := by
        have := hquad (-sxy) sxx (by linear_combination sxx * hdet)
        linarith
      by_cases ht : sxx + syy = 0
      · have p1 := rowSum_nonneg d (fun v => (v 0 - mx) * (v 0 - mx)) fun v => mul_self_nonneg _
        have p2 := rowSum_nonneg d (fun v => (v 1 - my) * (v 1 - my)) fun v => mul_self_nonneg _
        rw [← hsxx] at p1
        rw [← hsyy] at p2
        have z1 : sxx = 0 := by linarith
        have z2 : syy = 0 := by linarith
        have z3 : sxy = 0 := by rw [z1, z2] at hdet; nlinarith
        have q1 := hquad 1 0 (by rw [z1, z2, z3]; ring)
        have q2 := hquad 0 1 (by rw [z1, z2, z3]; ring)
        rw [eb, if_neg (not_not.2 hdet), if_neg (not_not.2 ht)]
        constructor <;> simp only <;> linarith
      · rw [eb, if_neg (not_not.2 hdet), if_pos ht]
        have ht2 : (sxx + syy) ^ 2 ≠ 0 := pow_ne_zero _ ht
        constructor
        · show sxx * (_ / _) + sxy * (_ / _) = _
          rw [mul_div_assoc', mul_div_assoc', ← add_div, div_eq_iff ht2]
          linear_combination (-(sxx + syy)) * a1 - sxz * hdet
        · show sxy * (_ / _) + syy * (_ / _) = _
          rw [mul_div_assoc', mul_div_assoc', ← add_div, div_eq_iff ht2]
          linear_combination (-(sxx + syy)) * a2 - syz * hdet
    · rw [eb, if_pos hdet]
      constructor
      · show sxx * (_ / _) + sxy * (_ / _) = _
        rw [mul_div_assoc', mul_div_assoc', ← add_div, div_eq_iff hdet]; ring
      · show sxy * (_ / _) + syy * (_ / _) = _
        rw [mul_div_assoc', mul_div_assoc', ← add_div, div_eq_iff hdet]; ring
  obtain ⟨n1, n2⟩ := key
  set mz := rowSum d (fun v => v 2 - ((v 0 - mx) * b.1 + (v 1 - my) * b.2)) / d.length with hmz
  refine ⟨mx, my, b.1, b.2, mz, ⟨hx, hy, mean_zero hd _, ?_, ?_⟩, ?_⟩
  · rw [rowSum_congr d (g := fun v => (((v 0 - mx) * v 2 - b.1 * ((v 0 - mx) * (v 0 - mx))) - b.2 * ((v 0 - mx) * (v 1 - my)))
      - mz * (v 0 - mx)) fun v => by ring]
    rw [rowSum_sub, rowSum_sub, rowSum_sub, rowSum_mul, rowSum_mul, rowSum_mul, hx]
    linarith
  · rw [rowSum_congr d (g := fun v => (((v 1 - my) * v 2 - b.1 * ((v 0 - mx) * (v 1 - my))) - b.2 * ((v 1 - my) * (v 1 - my)))
      - mz * (v 1 - my)) fun v => by ring]
    rw [rowSum_sub, rowSum_sub, rowSum_sub, rowSum_mul, rowSum_mul, rowSum_mul, hy]
    linarith
  · have emx : Oct.mean (d.map fun v => v 0) = mx := by rw [Oct.mean, List.length_map]; rfl
    have emy : Oct.mean (d.map fun v => v 1) = my := by rw [Oct.mean, List.length_map]; rfl
    rw [Oct.scanCenterAndRemoveLinear]
    simp only [emx, emy]
    rw [← hb]
    simp only [List.map_map, Function.comp_def, Matrix.cons_val]
    refine List.map_congr_left fun v _ => ?_
    have emz : Oct.mean (d.map fun v => v 2 - ((v 0 - mx) * b.1 + (v 1 - my) * b.2)) = mz := by
      rw [Oct.mean, List.length_map]; rfl
    rw [scanRow, emz]

/-- C95: the levelled scan has zero mean in every coordinate and no linear trend. -/
theorem C95_level (d : List V3) (hd : d ≠ []) :
    let o := Oct.scanCenterAndRemoveLinear d
    o.length = d.length ∧ (∀ i, (o.map fun v => v i).sum = 0) ∧ (o.map fun v => v 0 * v 2).sum = 0 ∧
      (o.map fun v => v 1 * v 2).sum = 0 := by
  intro o
  obtain ⟨mx, my, b1, b2, mz, hf, e⟩ := scan_fit hd
  have : o = d.map (scanRow mx my b1 b2 mz) := e
  rw [this]
  refine ⟨by simp, fun i => ?_, ?_, ?_⟩
  · show rowSum _ _ = 0
    rw [rowSum_map]
    fin_cases i
    · exact (rowSum_mul d 1e-3 _).trans ((congrArg ((1e-3 : ℝ) * ·) hf.x).trans (mul_zero _))
    · exact (rowSum_mul d 1e-3 _).trans ((congrArg ((1e-3 : ℝ) * ·) hf.y).trans (mul_zero _))
    · exact (rowSum_mul d 1e-3 _).trans ((congrArg ((1e-3 : ℝ) * ·) hf.z).trans (mul_zero _))
  · show rowSum _ _ = 0
    rw [rowSum_map, rowSum_congr d (g := fun v => 1e-6 * ((v 0 - mx) * (v 2 - ((v 0 - mx) * b1 + (v 1 - my) * b2) - mz))) fun v => by
      simp [scanRow]; ring, rowSum_mul, hf.xz, mul_zero]
  · show rowSum _ _ = 0
    rw [rowSum_map, rowSum_congr d (g := fun v => 1e-6 * ((v 1 - my) * (v 2 - ((v 0 - mx) * b1 + (v 1 - my) * b2) - mz))) fun v => by
      simp [scanRow]; ring, rowSum_mul, hf.yz, mul_zero]

/-- C95: positions are only shifted and converted from millimetres, a plane is subtracted from the heights, and no plane
leaves a smaller sum of squares. -/
theorem C95_least_squares (d : List V3) (hd : d ≠ []) :
    ∃ mx my a b c : ℝ, Oct.scanCenterAndRemoveLinear d = d.map (fun v => (1e-3 : ℝ) • ![v 0 - mx, v 1 - my, v 2 - (a + b * v 0 + c * v 1)]) ∧
      ∀ a' b' c' : ℝ, (d.map fun v => (v 2 - (a + b * v 0 + c * v 1)) ^ 2).sum ≤
        (d.map fun v => (v 2 - (a' + b' * v 0 + c' * v 1)) ^ 2).sum := by
  obtain ⟨mx, my, b1, b2, mz, hf, e⟩ := scan_fit hd
  refine ⟨mx, my, mz - b1 * mx - b2 * my, b1, b2, ?_, fun a' b' c' => ?_⟩
  · rw [e]
    refine List.map_congr_left fun v _ => ?_
    rw [scanRow]
    congr 1
    ext i
    fin_cases i
    · rfl
    · rfl
    · simp only [Fin.reduceFinMk, Matrix.cons_val]; ring
  · show rowSum _ _ ≤ rowSum _ _
    set w : V3 → ℝ := fun v => v 2 - ((v 0 - mx) * b1 + (v 1 - my) * b2) - mz with hw
    set p := b1 - b' with hp
    set q := b2 - c' with hq
    set r := mz - a' - b' * mx - c' * my with hr
    have e1 : rowSum d (fun v => (v 2 - (mz - b1 * mx - b2 * my + b1 * v 0 + b2 * v 1)) ^ 2) = rowSum d (fun v => w v ^ 2) :=
      rowSum_congr d fun v => by simp only [hw]; ring
    have e2 : rowSum d (fun v => (v 2 - (a' + b' * v 0 + c' * v 1)) ^ 2) = rowSum d (fun v => w v ^ 2) +
        rowSum d (fun v => (p * (v 0 - mx) + q * (v 1 - my) + r) ^ 2) := by
      have : ∀ v : V3, (v 2 - (a' + b' * v 0 + c' * v 1)) ^ 2 = w v ^ 2 + (p * (v 0 - mx) + q * (v 1 - my) + r) ^ 2
          + (2 * p * ((v 0 - mx) * w v) + 2 * q * ((v 1 - my) * w v) + 2 * r * w v) := by
        intro v; simp only [hw, hp, hq, hr]; ring
      rw [rowSum_congr d this, rowSum_add, rowSum_add, rowSum_add, rowSum_add, rowSum_mul, rowSum_mul, rowSum_mul, hf.xz, hf.yz, hf.z]
      ring
    rw [e1, e2]
    have := rowSum_nonneg d (fun v => (p * (v 0 - mx) + q * (v 1 - my) + r) ^ 2) fun v => sq_nonneg _
    linarith

/-- Two fits give the same row for every point of the scan, also when the coefficients are not determined. -/
theorem scanFit_unique {d : List V3} (hd : d ≠ []) {mx my b1 b2 mz mx' my' b1' b2' mz' : ℝ}
    (h : ScanFit d mx my b1 b2 mz) (h' : ScanFit d mx' my' b1' b2' mz') :
    mx = mx' ∧ my = my' ∧ ∀ v ∈ d, (v 0 - mx) * b1 + (v 1 - my) * b2 + mz = (v 0 - mx) * b1' + (v 1 - my) * b2' + mz' := by
  have hn : (d.length : ℝ) ≠ 0 := by exact_mod_cast fun h => hd (List.length_eq_zero_iff.1 h)
  have mean_eq : ∀ (f : V3 → ℝ) (m : ℝ), rowSum d (fun v => f v - m) = 0 → m = rowSum d f / d.length := by
    intro f m e
    rw [rowSum_sub, rowSum_const] at e
    field_simp; linarith
  have hxx : mx = mx' := by rw [mean_eq _ _ h.x, mean_eq _ _ h'.x]
  have hyy : my = my' := by rw [mean_eq _ _ h.y, mean_eq _ _ h'.y]
  subst hxx hyy
  refine ⟨rfl, rfl, ?_⟩
  have e : rowSum d (fun v => ((b1' - b1) * (v 0 - mx) + (b2' - b2) * (v 1 - my) + (mz' - mz)) ^ 2) = 0 := by
    rw [rowSum_congr d (g := fun v =>
      ((b1' - b1) * ((v 0 - mx) * (v 2 - ((v 0 - mx) * b1 + (v 1 - my) * b2) - mz))
        + (b2' - b2) * ((v 1 - my) * (v 2 - ((v 0 - mx) * b1 + (v 1 - my) * b2) - mz))
        + (mz' - mz) * (v 2 - ((v 0 - mx) * b1 + (v 1 - my) * b2) - mz))
      - ((b1' - b1) * ((v 0 - mx) * (v 2 - ((v 0 - mx) * b1' + (v 1 - my) * b2') - mz'))
        + (b2' - b2) * ((v 1 - my) * (v 2 - ((v 0 - mx) * b1' + (v 1 - my) * b2') - mz'))
        + (mz' - mz) * (v 2 - ((v 0 - mx) * b1' + (v 1 - my) * b2') - mz'))) fun v => by ring]
    rw [rowSum_sub, rowSum_add, rowSum_add, rowSum_add, rowSum_add, rowSum_mul, rowSum_mul, rowSum_mul, rowSum_mul, rowSum_mul,
      rowSum_mul, h.xz, h.yz, h.z, h'.xz, h'.yz, h'.z]
    ring
  intro v hv
  have := rowSum_sq_zero d _ e v hv
  linarith

/-- C95: tilting and displacing the scanned piece does not change the levelled scan: adding any plane to the heights and
shifting the positions gives the same result. -/
theorem C95_tilt (d : List V3) (s t a b c : ℝ) :
    Oct.scanCenterAndRemoveLinear (d.map fun v => ![v 0 + s, v 1 + t, v 2 + (a + b * v 0 + c * v 1)])
      = Oct.scanCenterAndRemoveLinear d := by
  set g : V3 → V3 := fun v => ![v 0 + s, v 1 + t, v 2 + (a + b * v 0 + c * v 1)] with hg
  by_cases hd : d = []
  · subst hd; rfl
  have hd' : d.map g ≠ [] := by simpa using hd
  obtain ⟨mx, my, b1, b2, mz, hf, e⟩ := scan_fit hd
  obtain ⟨mx', my', b1', b2', mz', hf', e'⟩ := scan_fit hd'
  have hf2 : ScanFit (d.map g) (mx + s) (my + t) (b1 + b) (b2 + c) (mz + a + b * mx + c * my) := by
    refine ⟨?_, ?_, ?_, ?_, ?_⟩ <;> rw [rowSum_map]
    · rw [rowSum_congr d (g := fun v => v 0 - mx) fun v => by simp only [hg, Matrix.cons_val]; ring]; exact hf.x
    · rw [rowSum_congr d (g := fun v => v 1 - my) fun v => by simp only [hg, Matrix.cons_val]; ring]; exact hf.y
    · rw [rowSum_congr d (g := fun v => v 2 - ((v 0 - mx) * b1 + (v 1 - my) * b2) - mz) fun v => by
        simp only [hg, Matrix.cons_val]; ring]; exact hf.z
    · rw [rowSum_congr d (g := fun v => (v 0 - mx) * (v 2 - ((v 0 - mx) * b1 + (v 1 - my) * b2) - mz)) fun v => by
        simp only [hg, Matrix.cons_val]; ring]; exact hf.xz
    · rw [rowSum_congr d (g := fun v => (v 1 - my) * (v 2 - ((v 0 - mx) * b1 + (v 1 - my) * b2) - mz)) fun v => by
        simp only [hg, Matrix.cons_val]; ring]; exact hf.yz
  obtain ⟨u1, u2, u3⟩ := scanFit_unique hd' hf' hf2
  rw [e, e', List.map_map]
  refine List.map_congr_left fun v hv => ?_
  have h3 := u3 _ (List.mem_map_of_mem (f := g) hv)
  rw [u1, u2] at h3
  simp only [hg, Matrix.cons_val] at h3
  rw [Function.comp, scanRow, scanRow, u1, u2]
  congr 1
  ext i
  fin_cases i <;> simp only [hg, Fin.zero_eta, Fin.mk_one, Fin.reduceFinMk, Matrix.cons_val]
  · ring
  · ring
  · linear_combination -h3

/-- C95: positions only move by their mean and become metres, and a scan of a plane becomes flat. -/
theorem C95_plane (d : List V3) (hd : d ≠ []) (a b c : ℝ) (h : ∀ v ∈ d, v 2 = a + b * v 0 + c * v 1) :
    Oct.scanCenterAndRemoveLinear d = d.map fun v => (1e-3 : ℝ) •
      ![v 0 - (d.map fun w => w 0).sum / d.length, v 1 - (d.map fun w => w 1).sum / d.length, 0] := by
  obtain ⟨mx, my, b1, b2, mz, hf, e⟩ := scan_fit hd
  set mx' := (d.map fun w => w 0).sum / d.length
  set my' := (d.map fun w => w 1).sum / d.length
  have hf2 : ScanFit d mx' my' b c (a + b * mx' + c * my') := by
    have e0 : ∀ f : V3 → ℝ, rowSum d (fun v => f v * (v 2 - ((v 0 - mx') * b + (v 1 - my') * c) - (a + b * mx' + c * my'))) = 0 := by
      intro f
      rw [rowSum, List.map_congr_left (g := fun _ => (0 : ℝ)) fun v hv => by rw [h v hv]; ring]
      simp
    refine ⟨mean_zero hd _, mean_zero hd _, ?_, e0 _, e0 _⟩
    simpa using e0 fun _ => 1
  obtain ⟨u1, u2, u3⟩ := scanFit_unique hd hf hf2
  rw [e]
  refine List.map_congr_left fun v hv => ?_
  have h3 := u3 v hv
  rw [scanRow, u1, u2]
  rw [u1, u2] at h3
  have h2 := h v hv
  congr 1
  ext i
  fin_cases i <;> simp only [Fin.zero_eta, Fin.mk_one, Fin.reduceFinMk, Matrix.cons_val]
  linarith

/-- C95: a scan along one line is levelled along that line. -/
example : Oct.scanCenterAndRemoveLinear [![0, 0, 1], ![1, 1, 3], ![2, 2, 5]] = [![-1e-3, -1e-3, 0], ![0, 0, 0], ![1e-3, 1e-3, 0]] := by
  rw [C95_plane _ (by simp) 1 1 1 (by simp; norm_num)]
  simp
  norm_num

end Newt
