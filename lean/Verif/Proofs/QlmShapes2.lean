import Verif.Proofs.QlmShapes

/-! # Rectangular prisms, pyramids and tetrahedra -/

namespace Newt

open MeasureTheory Finset Spec Qlm

/-- `1/((n-q+1)(q+1)) = (1/(n+2)) (1/(q+1) + 1/(n-q+1))` and the reflection `q -> n-q`. -/
theorem reflect_trick (A B n : ℕ) (c : ℕ → ℕ → ℂ) (q : ℕ → ℕ → ℕ) (eps X Y : ℂ)
    (hq : ∀ p ≤ A, ∀ j ≤ B, q p j ≤ n)
    (hr : ∀ p ≤ A, ∀ j ≤ B, q (A - p) (B - j) = n - q p j)
    (hc : ∀ p ≤ A, ∀ j ≤ B, c (A - p) (B - j) = eps * c p j) :
    ∑ p ∈ range (A + 1), ∑ j ∈ range (B + 1),
        c p j * (X ^ (n - q p j) * Y ^ (q p j) / (((n - q p j : ℕ) + 1) * ((q p j : ℕ) + 1)))
      = (∑ p ∈ range (A + 1), ∑ j ∈ range (B + 1),
        c p j * ((X ^ (n - q p j) * Y ^ (q p j) + eps * (X ^ (q p j) * Y ^ (n - q p j))) / ((q p j : ℕ) + 1)))
          / ((n : ℂ) + 2) := by
  have hsplit : ∀ p ∈ range (A + 1), ∀ j ∈ range (B + 1),
      c p j * (X ^ (n - q p j) * Y ^ (q p j) / (((n - q p j : ℕ) + 1) * ((q p j : ℕ) + 1)))
      = (c p j * (X ^ (n - q p j) * Y ^ (q p j) / ((q p j : ℕ) + 1))) / ((n : ℂ) + 2)
        + (c p j * (X ^ (n - q p j) * Y ^ (q p j) / ((n - q p j : ℕ) + 1))) / ((n : ℂ) + 2) := by
    intro p hp j hj
    simp only [mem_range] at hp hj
    obtain ⟨e, he⟩ : ∃ e, n = q p j + e := ⟨n - q p j, by have := hq p (by omega) j (by omega); omega⟩
    have h1 : ((q p j : ℂ) + 1) ≠ 0 := by exact_mod_cast (by omega : q p j + 1 ≠ 0)
    have h2 : ((e : ℂ) + 1) ≠ 0 := by exact_mod_cast (by omega : e + 1 ≠ 0)
    have h3 : ((n : ℂ) + 2) ≠ 0 := by exact_mod_cast (by omega : n + 2 ≠ 0)
    have h4 : ((q p j : ℂ) + e + 2) ≠ 0 := by exact_mod_cast (by omega : q p j + e + 2 ≠ 0)
    rw [show n - q p j = e by omega]
    have hn : (n : ℂ) = q p j + e := by exact_mod_cast he
    rw [hn]
    field_simp
    ring
  rw [sum_congr rfl fun p hp => sum_congr rfl fun j hj => hsplit p hp j hj]
  simp_rw [sum_add_distrib, add_div, mul_add, sum_add_distrib, ← sum_div]
  rw [← add_div]
  congr 2
  -- reflect the second sum
  rw [← sum_range_reflect (fun p => ∑ j ∈ range (B + 1),
    c p j * (X ^ (n - q p j) * Y ^ (q p j) / ((n - q p j : ℕ) + 1)))]
  refine sum_congr rfl fun p hp => ?_
  rw [← sum_range_reflect]
  refine sum_congr rfl fun j hj => ?_
  simp only [mem_range] at hp hj
  rw [show A + 1 - 1 - p = A - p by omega, show B + 1 - 1 - j = B - j by omega,
    hr p (by omega) j (by omega), hc p (by omega) j (by omega),
    show n - (n - q p j) = q p j by have := hq p (by omega) j (by omega); omega]
  ring

theorem neg_one_pow_half (m p : ℕ) (hp : p ≤ m / 2) : (-1 : ℂ) ^ (m / 2 - p) = (-1) ^ (m / 2) * (-1) ^ p := by
  obtain ⟨e, he⟩ : ∃ e, m / 2 = p + e := ⟨m / 2 - p, by omega⟩
  rw [he, Nat.add_sub_cancel_left, pow_add, mul_right_comm, neg_one_sq_pow, one_mul]

theorem pm_rect_odd (a b : ℝ) (ha : 0 < a) (hb : 0 < b) (m k : ℕ) (hm : m % 2 = 1) :
    pm (rectangle a b) m k = 0 := by
  rw [pm_expand_int2 _ (rectangle_compact a b)]
  refine sum_eq_zero fun p hp => sum_eq_zero fun j hj => ?_
  simp only [mem_range] at hp hj
  rw [rect_mono a b ha hb]
  by_cases h : (2 * j + p) % 2 = 1
  · rw [zint_odd b _ h]; simp
  · rw [zint_odd a _ (by omega)]; simp

theorem zint_mul (a b : ℝ) (i j : ℕ) (hi : i % 2 = 0) (hj : j % 2 = 0) :
    zint a i * zint b j = a * b * ((a / 2) ^ i * (b / 2) ^ j / (((i : ℝ) + 1) * ((j : ℝ) + 1))) := by
  rw [zint_even a i hi, zint_even b j hj, pow_succ, pow_succ]
  have h1 : (i : ℝ) + 1 ≠ 0 := by positivity
  have h2 : (j : ℝ) + 1 ≠ 0 := by positivity
  field_simp

theorem pm_rect_even (a b : ℝ) (ha : 0 < a) (hb : 0 < b) (m k : ℕ) (hm : m % 2 = 0) :
    pm (rectangle a b) m k
      = ((a * b / (((m + 2 * k : ℕ) : ℝ) + 2) / 2 ^ (m + 2 * k) * rectPsum a b m k : ℝ) : ℂ) := by
  rw [pm_expand_int2 _ (rectangle_compact a b), sum_even]
  swap
  · intro p hp
    refine sum_eq_zero fun j _ => ?_
    rw [rect_mono a b ha hb, zint_odd b _ (by omega)]; simp
  have h1 : ∀ p ∈ range (m / 2 + 1), ∀ j ∈ range (k + 1),
      (m.choose (2 * p) : ℂ) * (k.choose j : ℂ) * (-Complex.I) ^ (2 * p) *
        ∫ q in rectangle a b, ((q.1 ^ (m + 2 * k - (2 * j + 2 * p)) * q.2 ^ (2 * j + 2 * p) : ℝ) : ℂ)
      = (a * b : ℂ) * (((m.choose (2 * p) : ℂ) * (k.choose j : ℂ) * (-1) ^ p) *
        (((a : ℂ) / 2) ^ (m + 2 * k - (2 * j + 2 * p)) * ((b : ℂ) / 2) ^ (2 * j + 2 * p)
          / (((m + 2 * k - (2 * j + 2 * p) : ℕ) + 1) * ((2 * j + 2 * p : ℕ) + 1)))) := by
    intro p hp j hj
    simp only [mem_range] at hp hj
    rw [rect_mono a b ha hb, zint_mul a b _ _ (by omega) (by omega), neg_I_pow_two_mul]
    push_cast
    ring
  rw [sum_congr rfl fun p hp => sum_congr rfl fun j hj => h1 p hp j hj]
  simp_rw [← mul_sum]
  rw [reflect_trick (m / 2) k (m + 2 * k)
    (fun p j => (m.choose (2 * p) : ℂ) * (k.choose j : ℂ) * (-1) ^ p) (fun p j => 2 * j + 2 * p)
    ((-1) ^ (m / 2)) ((a : ℂ) / 2) ((b : ℂ) / 2)]
  · rw [rectPsum]
    push_cast
    simp only [mul_div_assoc, mul_sum, sum_div]
    refine sum_congr rfl fun p hp => sum_congr rfl fun j hj => ?_
    simp only [mem_range] at hp hj
    rw [spComb_nat, show (2 * (p : ℤ)) = ((2 * p : ℕ) : ℤ) by push_cast; rfl, spComb_nat]
    obtain ⟨e, he⟩ : ∃ e, m + 2 * k = (2 * j + 2 * p) + e := ⟨m + 2 * k - (2 * j + 2 * p), by omega⟩
    have h5 : ((m : ℂ) + 2 * k + 2) ≠ 0 := by exact_mod_cast (by omega : m + 2 * k + 2 ≠ 0)
    have h6 : (2 * (j : ℂ) + 2 * p + 1) ≠ 0 := by exact_mod_cast (by omega : 2 * j + 2 * p + 1 ≠ 0)
    rw [show 2 * k + m = m + 2 * k by ring, he, Nat.add_sub_cancel_left, pow_add (2 : ℂ), div_pow, div_pow,
      div_pow, div_pow]
    push_cast
    field_simp
  · intro p hp j hj; omega
  · intro p hp j hj; omega
  · intro p hp j hj
    rw [neg_one_pow_half m p hp, show 2 * (m / 2 - p) = m - 2 * p by omega, Nat.choose_symm (by omega),
      Nat.choose_symm hj]
    ring

theorem vol_rect (a b : ℝ) (ha : 0 < a) (hb : 0 < b) : pm (rectangle a b) 0 0 = ((a * b : ℝ) : ℂ) := by
  rw [pm_rect_even a b ha hb 0 0 rfl]
  congr 1
  simp [rectPsum, spComb]
  ring

theorem rect_cell (mass H a b phic : ℝ) (hH : 0 < H) (ha : 0 < a) (hb : 0 < b) (l m : ℕ) (hm : m ≤ l) :
    rectCell mass H a b phic l m
      = uniformMoment mass (prism H (rotated phic (rectangle a b))) l m := by
  rw [uniform_prism mass H hH _ (rotated_compact _ _ (rectangle_compact _ _)) l m hm, rectCell]
  by_cases hp : (l - m) % 2 = 0
  · by_cases hm2 : m % 2 = 0
    · rw [if_pos ⟨by omega, hm2⟩, if_pos hp, sum_mul, sum_mul]
      refine sum_congr rfl fun k _ => ?_
      rw [pm_rotated, pm_rotated, vol_rect a b ha hb, pm_rect_even a b ha hb m k hm2, phase]
      have hac : (a : ℂ) ≠ 0 := by exact_mod_cast ha.ne'
      have hbc : (b : ℂ) ≠ 0 := by exact_mod_cast hb.ne'
      have h2 : ((gam3 l m k : ℝ) : ℂ) ≠ 0 := by exact_mod_cast gam3_ne l m k
      have h4 : ((m : ℂ) + 2 * k + 2) ≠ 0 := by exact_mod_cast (by omega : m + 2 * k + 2 ≠ 0)
      have e : 2 * (k : ℂ) + m + 2 = (m : ℂ) + 2 * k + 2 := by ring
      have hs : (-1 : ℝ) ^ (k + m) = (-1) ^ k := by
        rw [pow_add, Even.neg_one_pow (Nat.even_iff.2 hm2), mul_one]
      rw [hs, show l + 2 * k + m = l + (m + 2 * k) by ring, pow_add (2 : ℝ) l]
      push_cast
      simp only [mul_zero, zero_mul, Complex.exp_zero, one_mul, e]
      field_simp
    · rw [if_neg (by omega), if_pos hp]
      symm
      apply mul_eq_zero_of_left
      refine sum_eq_zero fun k _ => ?_
      rw [pm_rotated, pm_rect_odd a b ha hb m k (by omega)]; simp
  · rw [if_neg (by omega), if_neg hp]

/-! ## Tetrahedra -/

theorem gam_tet (p j m k : ℕ) (hp : p ≤ m + k) (hj : j ≤ k) :
    Real.exp (gammaln ((m : ℝ) + 2 * k - (p + j) + 1) + gammaln ((p : ℝ) + j + 1)
        - (gammaln ((j : ℝ) + 1) + gammaln ((k : ℝ) - j + 1))
        - (gammaln ((p : ℝ) + 1) + gammaln ((m : ℝ) + k - p + 1)))
      = (m + 2 * k - (p + j)).factorial * (p + j).factorial
        / (j.factorial * (k - j).factorial) / (p.factorial * (m + k - p).factorial) := by
  rw [Real.exp_sub, Real.exp_sub, Real.exp_add, Real.exp_add, Real.exp_add,
    exp_gammaln_nat _ (m + 2 * k - (p + j)) (by rw [Nat.cast_sub (by omega)]; push_cast; ring),
    exp_gammaln_nat ((p : ℝ) + j + 1) (p + j) (by push_cast; ring), exp_gammaln_nat ((j : ℝ) + 1) j rfl,
    exp_gammaln_nat ((k : ℝ) - j + 1) (k - j) (by rw [Nat.cast_sub hj]), exp_gammaln_nat ((p : ℝ) + 1) p rfl,
    exp_gammaln_nat ((m : ℝ) + k - p + 1) (m + k - p) (by rw [Nat.cast_sub hp]; push_cast; ring)]

theorem gam_tet2 (p j m k : ℕ) (hp : p ≤ m + k) (hj : j ≤ k) :
    Real.exp (gammaln ((m : ℝ) + 2 * k + 2)
        - (gammaln ((j : ℝ) + 1) + gammaln ((k : ℝ) - j + 1))
        - (gammaln ((p : ℝ) + 1) + gammaln ((m : ℝ) + k - p + 1)))
      = (m + 2 * k + 1).factorial
        / (j.factorial * (k - j).factorial) / (p.factorial * (m + k - p).factorial) := by
  rw [Real.exp_sub, Real.exp_sub, Real.exp_add, Real.exp_add,
    exp_gammaln_nat ((m : ℝ) + 2 * k + 2) (m + 2 * k + 1) (by push_cast; ring), exp_gammaln_nat ((j : ℝ) + 1) j rfl,
    exp_gammaln_nat ((k : ℝ) - j + 1) (k - j) (by rw [Nat.cast_sub hj]), exp_gammaln_nat ((p : ℝ) + 1) p rfl,
    exp_gammaln_nat ((m : ℝ) + k - p + 1) (m + k - p) (by rw [Nat.cast_sub hp]; push_cast; ring)]

theorem choose_fac (n k : ℕ) (h : k ≤ n) :
    (n.choose k : ℂ) = n.factorial / (k.factorial * (n - k).factorial) := Nat.cast_choose ℂ h

theorem pm_right (x y : ℝ) (hx : 0 < x) (hy : 0 < y) (m k : ℕ) :
    pm (triangle (x, 0) (0, y)) m k
      = ((x * y * k.factorial * (m + k).factorial / (m + 2 * k + 2).factorial : ℝ) : ℂ) * tetPsum x y m k := by
  rw [pm_expand_int _ (triangle_compact _ _), tetPsum, mul_sum]
  refine sum_congr rfl fun p hp => ?_
  rw [mul_sum]
  refine sum_congr rfl fun j hj => ?_
  simp only [mem_range] at hp hj
  rw [right_mono x y hx hy, bint_eq x hx, gam_tet p j m k (by omega) (by omega),
    choose_fac _ _ (by omega : p ≤ m + k), choose_fac _ _ (by omega : j ≤ k),
    show m + 2 * k - (p + j) + (p + j + 1) + 1 = m + 2 * k + 2 by omega,
    Nat.factorial_succ (p + j)]
  generalize m + 2 * k - (p + j) = e
  have h1 : ((p : ℂ) + j + 1) ≠ 0 := by exact_mod_cast (by omega : p + j + 1 ≠ 0)
  have hf : ∀ n : ℕ, ((n.factorial : ℕ) : ℂ) ≠ 0 := fun n => by exact_mod_cast n.factorial_ne_zero
  have f1 := hf p; have f2 := hf (m + k - p); have f3 := hf j; have f4 := hf (k - j)
  have f5 := hf (m + 2 * k + 2)
  push_cast
  field_simp
  ring

theorem vol_right (x y : ℝ) (hx : 0 < x) (hy : 0 < y) :
    pm (triangle (x, 0) (0, y)) 0 0 = ((x * y / 2 : ℝ) : ℂ) := by
  rw [pm_right x y hx hy, tetPsum]
  simp only [Nat.zero_add, Nat.add_zero, range_one, sum_singleton, Nat.mul_zero]
  rw [gam_tet 0 0 0 0 (by omega) (by omega)]
  simp [Nat.factorial]

theorem tet_cell (mass x y z : ℝ) (hx : 0 < x) (hy : 0 < y) (hz : 0 < z) (l m : ℕ) (hm : m ≤ l) :
    tetCell mass x y z l m = uniformMoment mass (coneOver z (triangle (x, 0) (0, y))) l m := by
  rw [uniform_cone mass z hz _ (triangle_compact _ _) l m hm, tetCell, sum_mul, sum_mul]
  refine sum_congr rfl fun k hk => ?_
  have hk' : m + 2 * k ≤ l := by simp only [mem_range] at hk; omega
  rw [pm_right x y hx hy, vol_right x y hx hy, show l - 2 * k - m = l - (m + 2 * k) by omega, add_comm k m]
  have hf : ∀ n : ℕ, ((n.factorial : ℕ) : ℂ) ≠ 0 := fun n => by exact_mod_cast n.factorial_ne_zero
  have f1 := hf k; have f2 := hf (m + k)
  have f5 := hf (m + 2 * k + 2)
  have hxc : (x : ℂ) ≠ 0 := by exact_mod_cast hx.ne'
  have hyc : (y : ℂ) ≠ 0 := by exact_mod_cast hy.ne'
  push_cast
  field_simp
  ring

theorem tet2Psum_eq (x y1 y2 : ℝ) (m k : ℕ) :
    tint x y1 y2 m k = ((k.factorial * (m + k).factorial / (m + 2 * k + 1).factorial : ℝ) : ℂ)
      * tet2Psum x y1 y2 m k := by
  rw [tint_expand, tet2Psum, mul_sum]
  refine sum_congr rfl fun p hp => ?_
  rw [mul_sum]
  refine sum_congr rfl fun j hj => ?_
  simp only [mem_range] at hp hj
  rw [gam_tet2 p j m k (by omega) (by omega),
    choose_fac _ _ (by omega : p ≤ m + k), choose_fac _ _ (by omega : j ≤ k)]
  generalize m + 2 * k - (p + j) = e
  have h1 : ((p : ℂ) + j + 1) ≠ 0 := by exact_mod_cast (by omega : p + j + 1 ≠ 0)
  have hf : ∀ n : ℕ, ((n.factorial : ℕ) : ℂ) ≠ 0 := fun n => by exact_mod_cast n.factorial_ne_zero
  have f1 := hf p; have f2 := hf (m + k - p); have f3 := hf j; have f4 := hf (k - j)
  have f5 := hf (m + 2 * k + 1)
  push_cast
  field_simp

theorem tet2_cell (mass x y1 y2 z : ℝ) (hx : 0 < x) (hy : y1 ≠ y2) (hz : 0 < z) (l m : ℕ) (hm : m ≤ l) :
    tet2Cell mass x y1 y2 z l m = uniformMoment mass (coneOver z (triangle (x, y1) (x, y2))) l m := by
  obtain ⟨c, hc, ht⟩ := pm_triangle x y1 y2 hx.ne'
  rw [uniform_cone mass z hz _ (triangle_compact _ _) l m hm, tet2Cell, sum_mul, sum_mul]
  refine sum_congr rfl fun k hk => ?_
  have hk' : m + 2 * k ≤ l := by simp only [mem_range] at hk; omega
  have hfs : (m + 2 * k + 2).factorial = (m + 2 * k + 2) * (m + 2 * k + 1).factorial :=
    Nat.factorial_succ _
  rw [ht, ht, tint_zero, tet2Psum_eq, show l - 2 * k - m = l - (m + 2 * k) by omega, add_comm k m, hfs]
  have hf : ∀ n : ℕ, ((n.factorial : ℕ) : ℂ) ≠ 0 := fun n => by exact_mod_cast n.factorial_ne_zero
  have f1 := hf k; have f2 := hf (m + k)
  have f5 := hf (m + 2 * k + 1)
  have hcc : (c : ℂ) ≠ 0 := by exact_mod_cast hc
  have hxc : (x : ℂ) ≠ 0 := by exact_mod_cast hx.ne'
  have hyc : ((y2 : ℂ) - y1) ≠ 0 := by rw [sub_ne_zero]; exact_mod_cast hy.symm
  have h4 : ((m : ℂ) + 2 * k + 2) ≠ 0 := by exact_mod_cast (by omega : m + 2 * k + 2 ≠ 0)
  push_cast
  simp only [mul_zero, add_zero, zero_add]
  field_simp
  ring

/-! ## Pyramids -/

theorem pm_rect_pyr (x y : ℝ) (hx : 0 < x) (hy : 0 < y) (m k : ℕ) (hm : m % 2 = 0) :
    pm (rectangle (2 * x) (2 * y)) m k
      = ((4 * x * y * k.factorial * (m + k).factorial / (m + 2 * k + 2).factorial : ℝ) : ℂ)
        * pyrPsum x y m k := by
  rw [pm_expand_int _ (rectangle_compact _ _)]
  set D : ℕ → ℕ → ℂ := fun p j => if (p + j) % 2 = 0 then
    ((m + k).choose p : ℂ) * (k.choose j : ℂ) * (Complex.I ^ (p + j) * (-1) ^ p) else 0 with hD
  have h1 : ∀ p ∈ range (m + k + 1), ∀ j ∈ range (k + 1),
      ((m + k).choose p : ℂ) * (k.choose j : ℂ) * (Complex.I ^ (p + j) * (-1) ^ p)
        * ∫ q in rectangle (2 * x) (2 * y), ((q.1 ^ (m + 2 * k - (p + j)) * q.2 ^ (p + j) : ℝ) : ℂ)
      = (4 * x * y : ℂ) * (D p j * ((x : ℂ) ^ (m + 2 * k - (p + j)) * (y : ℂ) ^ (p + j)
          / (((m + 2 * k - (p + j) : ℕ) + 1) * ((p + j : ℕ) + 1)))) := by
    intro p hp j hj
    simp only [mem_range] at hp hj
    rw [rect_mono _ _ (by linarith) (by linarith)]
    by_cases h : (p + j) % 2 = 0
    · simp only [hD, if_pos h]
      rw [zint_mul _ _ _ _ (by omega) h, show 2 * x / 2 = x by ring, show 2 * y / 2 = y by ring]
      push_cast
      ring
    · simp only [hD, if_neg h]
      rw [zint_odd (2 * y) _ (by omega)]; simp
  rw [sum_congr rfl fun p hp => sum_congr rfl fun j hj => h1 p hp j hj]
  simp_rw [← mul_sum]
  have hfs : (m + 2 * k + 2).factorial = (m + 2 * k + 2) * (m + 2 * k + 1).factorial :=
    Nat.factorial_succ _
  rw [reflect_trick (m + k) k (m + 2 * k) D (fun p j => p + j) ((-1) ^ (m / 2)) (x : ℂ) (y : ℂ)]
  · rw [pyrPsum, hfs]
    simp only [mul_sum, sum_div]
    refine sum_congr rfl fun p hp => sum_congr rfl fun j hj => ?_
    simp only [mem_range] at hp hj
    by_cases h : (p + j) % 2 = 0
    · simp only [hD, if_pos h]
      rw [gam_tet2 p j m k (by omega) (by omega),
        choose_fac _ _ (by omega : p ≤ m + k), choose_fac _ _ (by omega : j ≤ k)]
      generalize m + 2 * k - (p + j) = e
      have h1 : ((p : ℂ) + j + 1) ≠ 0 := by exact_mod_cast (by omega : p + j + 1 ≠ 0)
      have h4 : ((m : ℂ) + 2 * k + 2) ≠ 0 := by exact_mod_cast (by omega : m + 2 * k + 2 ≠ 0)
      have hf : ∀ n : ℕ, ((n.factorial : ℕ) : ℂ) ≠ 0 := fun n => by exact_mod_cast n.factorial_ne_zero
      have f1 := hf p; have f2 := hf (m + k - p); have f3 := hf j; have f4 := hf (k - j)
      have f5 := hf (m + 2 * k + 1)
      push_cast
      field_simp
    · simp only [hD, if_neg h]; simp
  · intro p hp j hj; omega
  · intro p hp j hj; omega
  · intro p hp j hj
    simp only [hD]
    by_cases h : (p + j) % 2 = 0
    · rw [if_pos h, if_pos (by omega), Nat.choose_symm hp, Nat.choose_symm hj]
      obtain ⟨m', hm'⟩ : ∃ m', m = 2 * m' := ⟨m / 2, by omega⟩
      obtain ⟨s, hs⟩ : ∃ s, p + j = 2 * s := ⟨(p + j) / 2, by omega⟩
      have e1 : m + k - p + (k - j) = 2 * (m' + k - s) := by omega
      have e2 : (-1 : ℂ) ^ (m + k - p) = (-1) ^ k * (-1) ^ p := by
        have : (-1 : ℂ) ^ (m + k - p) * (-1) ^ p = (-1) ^ k := by
          rw [← pow_add, Nat.sub_add_cancel hp, hm', pow_add, pow_mul]; simp
        rw [← this, mul_assoc, neg_one_sq_pow, mul_one]
      have e3 : (-1 : ℂ) ^ (m' + k - s) = (-1) ^ m' * (-1) ^ k * (-1) ^ s := by
        have : (-1 : ℂ) ^ (m' + k - s) * (-1) ^ s = (-1) ^ m' * (-1) ^ k := by
          rw [← pow_add, Nat.sub_add_cancel (by omega), pow_add]
        rw [← this, mul_assoc, neg_one_sq_pow, mul_one]
      rw [e1, hs, e2, pow_mul, pow_mul, Complex.I_sq, e3, hm', Nat.mul_div_cancel_left _ (by norm_num)]
      have := neg_one_sq_pow k
      linear_combination ((2 * m' + k).choose p : ℂ) * (k.choose j : ℂ) * ((-1) ^ m' * (-1) ^ s * (-1) ^ p) * this
    · rw [if_neg h, if_neg (by omega)]; simp

theorem pyr_cell (mass x y z : ℝ) (hx : 0 < x) (hy : 0 < y) (hz : 0 < z) (l m : ℕ) (hm : m ≤ l) :
    pyrCell mass x y z l m = uniformMoment mass (coneOver z (rectangle (2 * x) (2 * y))) l m := by
  rw [uniform_cone mass z hz _ (rectangle_compact _ _) l m hm, pyrCell]
  by_cases hm2 : m % 2 = 0
  · rw [if_pos hm2, sum_mul, sum_mul]
    refine sum_congr rfl fun k hk => ?_
    have hk' : m + 2 * k ≤ l := by simp only [mem_range] at hk; omega
    rw [pm_rect_pyr x y hx hy m k hm2, vol_rect _ _ (by linarith) (by linarith),
      show l - 2 * k - m = l - (m + 2 * k) by omega, add_comm k m]
    have hf : ∀ n : ℕ, ((n.factorial : ℕ) : ℂ) ≠ 0 := fun n => by exact_mod_cast n.factorial_ne_zero
    have f1 := hf k; have f2 := hf (m + k)
    have f5 := hf (m + 2 * k + 2)
    have hxc : (x : ℂ) ≠ 0 := by exact_mod_cast hx.ne'
    have hyc : (y : ℂ) ≠ 0 := by exact_mod_cast hy.ne'
    push_cast
    field_simp
    ring
  · rw [if_neg hm2]
    symm
    apply mul_eq_zero_of_left
    refine sum_eq_zero fun k _ => ?_
    rw [pm_rect_odd _ _ (by linarith) (by linarith) m k (by omega)]; simp

end Newt
