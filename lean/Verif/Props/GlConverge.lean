import Verif.Proofs.GlTracks
import Verif.Proofs.GaussExists
import Verif.Props.GShapeGL
import Verif.Props.GlibConverge2
import Verif.Props.GlibBodies
import Verif.Props.Shell

/-!
# C90: finer and finer Gauss-Legendre arrays of `newt/gShapeGL.py`

`gl n` is `np.polynomial.legendre.leggauss(n)`, assumed to be the Gauss-Legendre rule for every `n >= 1`.  `GlTracks`
(Spec/GlApprox): the generator succeeds for all large grids and `sum_i m_i f(x_i)` converges to `mass / volume` times the
integral of `f`, for every `f` continuous on the solid.
-/

namespace Newt

open Spec GLeg MeasureTheory Filter Topology
open Shp (compact_of_box nf_convex vol_ne_of_open nf_inter nf_outside nf_disc nf_abs nf_cone nf_half nf_le nf_ge sector_box azimuth_iff)

theorem vec3_congr {a b c a' b' c' : ℝ} (h0 : a = a') (h1 : b = b') (h2 : c = c') : ![a, b, c] = ![a', b', c'] := by
  rw [h0, h1, h2]

/-- There are Gauss-Legendre rules of every size: the hypothesis about `leggauss` of C72-C74 and C90 can be met. -/
theorem C90_rules_exist : ∃ gl : ℕ → Rule, ∀ n, 1 ≤ n → Gauss (gl n) n := by
  choose r hr using gauss_exists
  exact ⟨r, fun n _ => hr n⟩

theorem brick_compact (a b c : ℝ) : IsCompact (brick a b c) := compact_of_box (brick_closed a b c) _ _ (brick_box a b c)

variable (gl : ℕ → Rule) (hgl : ∀ n, 1 ≤ n → Gauss (gl n) n)

include hgl

/-- `rectangle` becomes the brick. -/
theorem C90_rectangle (mass x y z : ℝ) (hx : 0 < x) (hy : 0 < y) (hz : 0 < z) :
    GlTracks atTop (fun n : ℕ × ℕ × ℕ => GLeg.rectangle gl mass x y z n.1 n.2.1 n.2.2) mass (brick x y z) (brick_compact x y z) := by
  have h := (gl_tracks (gl := gl) (h := ![x / 2, y / 2, z / 2]) (c := ![0, 0, 0]) hgl
    (forall_fin3 (by simpa using hx) (by simpa using hy) (by simpa using hz)) (brick x y z) (brick_compact x y z)
    (brick_nf _ _ _) (brick_vol hx hy hz) (by
      rintro v ⟨h0, h1, h2⟩
      refine forall_fin3 ?_ ?_ ?_ <;> simp only [Matrix.cons_val, sub_zero] <;> assumption) mass (fun _ => true) (by
      intro q hq
      have g0 := hq 0
      have g1 := hq 1
      have g2 := hq 2
      simp only [Matrix.cons_val, sub_zero] at g0 g1 g2
      exact ⟨fun _ => ⟨g0.le, g1.le, g2.le⟩, fun _ => rfl⟩) (1 / 8) (by norm_num)
    (fun n k l m => ⟨1 / 8 * ((gl n.1).w m * (gl n.2.1).w l * (gl n.2.2).w k),
          ![(gl n.1).s m * x / 2, (gl n.2.1).s l * y / 2, (gl n.2.2).s k * z / 2]⟩) (by
      intro n k l m
      simp only [gnode, Matrix.cons_val, Pt.mk.injEq, true_and]
      exact vec3_congr (by ring) (by ring) (by ring))).2
  refine h.congr' ?_
  filter_upwards [ev3] with n hn
  obtain ⟨A, hA, -, hm, -⟩ := C72_rectangle gl 1 x y z hx hy hz n.1 n.2.1 n.2.2 hn.1 hn.2.1 hn.2.2 (hgl _ hn.1) (hgl _ hn.2.1)
    (hgl _ hn.2.2)
  rw [GLeg.rectangle, if_neg (by omega)] at hA
  have hA' := Out.ok.inj hA
  rw [List.filter_true, hA', GLeg.rescale, GLeg.rectangle, if_neg (by omega)]
  have hs : (A.map Pt.mass).sum = 1 := hm
  have hne : A ≠ [] := by rintro rfl; simp at hs
  simp only [hs]
  rw [if_neg hne, if_neg one_ne_zero, ← hA']
  congr 1
  simp only [GLeg.rows, List.map_flatMap, List.map_map, Function.comp_def]
  refine List.flatMap_congr fun k _ => List.flatMap_congr fun l _ => List.map_congr_left fun m _ => ?_
  rw [Pt.mk.injEq]
  exact ⟨by ring, rfl⟩

omit hgl in
theorem mem_ball_iff {r : ℝ} (hr : 0 ≤ r) (v : V3) : v ∈ ball r ↔ v 0 ^ 2 + v 1 ^ 2 + v 2 ^ 2 ≤ r ^ 2 := by
  rw [ball, Set.mem_setOf_eq, modulus, Real.sqrt_le_left hr]

omit hgl in
theorem ball_nf (r : ℝ) : volume (frontier (ball r)) = 0 := by
  refine nf_convex ?_
  intro x hx y hy a b ha hb hab
  simp only [ball, Set.mem_setOf_eq] at hx hy ⊢
  refine (modulus_add_le _ _).trans ?_
  rw [modulus_smul, modulus_smul, abs_of_nonneg ha, abs_of_nonneg hb]
  calc a * modulus x + b * modulus y ≤ a * r + b * r := by gcongr
    _ = r := by rw [← add_mul, hab, one_mul]

omit hgl in
theorem ball_vol_ne {r : ℝ} (hr : 0 < r) : volume (ball r) ≠ 0 := by
  refine vol_ne_of_open (U := {v : V3 | modulus v < r}) (isOpen_lt modulus_continuous continuous_const) ⟨0, ?_⟩ fun v hv => ?_
  · simp only [Set.mem_setOf_eq, (modulus_eq_zero 0).2 rfl]
    exact hr
  · exact (show modulus v < r from hv).le

/-- `sphere` becomes the ball of radius `r`. -/
theorem C90_sphere (mass r : ℝ) (hm : mass ≠ 0) (hr : 0 < r) :
    GlTracks atTop (fun n : ℕ => GLeg.sphere gl mass r n) mass (ball r) (ball_compact r) := by
  classical
  have hpi := Real.pi_pos
  have h4 : 4 / 3 * Real.pi * r ^ 3 ≠ 0 := by positivity
  have h := (gl_tracks (gl := gl) (h := ![r, r, r]) (c := ![0, 0, 0]) hgl
    (forall_fin3 (by simpa using hr) (by simpa using hr) (by simpa using hr)) (ball r) (ball_compact r)
    (ball_nf r) (ball_vol_ne hr) (by
      intro v hv
      rw [mem_ball_iff hr.le] at hv
      refine forall_fin3 ?_ ?_ ?_ <;> simp only [Matrix.cons_val, sub_zero] <;> refine abs_le_of_sq_le_sq ?_ hr.le <;>
        nlinarith [sq_nonneg (v 0), sq_nonneg (v 1), sq_nonneg (v 2)]) mass
    (fun p => decide (p.pos 0 ^ 2 + p.pos 1 ^ 2 + p.pos 2 ^ 2 ≤ r ^ 2)) (by
      intro q hq
      rw [decide_eq_true_iff, mem_ball_iff hr.le]) (mass / (4 / 3 * Real.pi * r ^ 3) * r ^ 3)
    (mul_ne_zero (div_ne_zero hm h4) (by positivity))
    (fun n k l m => ⟨(gl n.1).w m * (gl n.2.1).w l * (gl n.2.2).w k * (mass / (4 / 3 * Real.pi * r ^ 3) * r ^ 3),
          ![(gl n.1).s m * r, (gl n.2.1).s l * r, (gl n.2.2).s k * r]⟩) (by
      intro n k l m
      simp only [gnode, Matrix.cons_val, Pt.mk.injEq, add_zero, and_true]
      ring)).1
  refine (h.comp tendsto_cube).congr' ?_
  filter_upwards [eventually_ge_atTop 1] with n hn
  rw [GLeg.sphere, if_neg (by omega), if_neg h4]

omit hgl in
theorem ring_eq (iR oR t : ℝ) : ring iR oR t = {v : V3 | iR ^ 2 ≤ v 0 ^ 2 + v 1 ^ 2} ∩ ({v : V3 | v 0 ^ 2 + v 1 ^ 2 ≤ oR ^ 2} ∩
    {v : V3 | |v 2| ≤ t / 2}) := rfl

omit hgl in
theorem ring_compact (iR oR t : ℝ) : IsCompact (ring iR oR t) := by
  refine compact_of_box (W := ![2 * |oR|, 2 * |oR|, t]) (c := ![0, 0, 0]) ?_ ?_
  · rw [ring_eq]
    exact (isClosed_le (by fun_prop) (by fun_prop)).inter ((isClosed_le (by fun_prop) (by fun_prop)).inter
      (isClosed_le (by fun_prop) (by fun_prop)))
  · rintro v ⟨-, h1, h2⟩
    refine forall_fin3 ?_ ?_ ?_ <;> simp only [Matrix.cons_val, sub_zero]
    · rw [mul_div_cancel_left₀ _ two_ne_zero, ← sq_le_sq]; nlinarith [sq_nonneg (v 1)]
    · rw [mul_div_cancel_left₀ _ two_ne_zero, ← sq_le_sq]; nlinarith [sq_nonneg (v 0)]
    · exact h2

/-- `annulus` with as many points along z as across becomes the ring of twice the requested height. -/
theorem C90_annulus (mass iR oR t : ℝ) (h1 : 0 ≤ iR) (h2 : iR < oR) (ht : 0 < t) :
    GlTracks atTop (fun n : ℕ => GLeg.annulus gl mass iR oR t n n) mass (ring iR oR (2 * t)) (ring_compact iR oR (2 * t)) := by
  classical
  have ho : 0 < oR := by linarith
  have h := (gl_tracks (gl := gl) (h := ![oR, oR, t]) (c := ![0, 0, 0]) hgl
    (forall_fin3 (by simpa using ho) (by simpa using ho) (by simpa using ht)) (ring iR oR (2 * t)) (ring_compact iR oR (2 * t))
    (by rw [ring_eq]; exact nf_inter (nf_outside _) (nf_inter (nf_disc _) (nf_abs 2 _))) (by
      refine vol_ne_of_open (U := {v : V3 | iR ^ 2 < v 0 ^ 2 + v 1 ^ 2} ∩ ({v : V3 | v 0 ^ 2 + v 1 ^ 2 < oR ^ 2} ∩
        {v : V3 | |v 2| < t})) ?_ ?_ ?_
      · exact (isOpen_lt (by fun_prop) (by fun_prop)).inter ((isOpen_lt (by fun_prop) (by fun_prop)).inter
          (isOpen_lt (by fun_prop) (by fun_prop)))
      · refine ⟨![(iR + oR) / 2, 0, 0], ?_⟩
        simp only [Set.mem_inter_iff, Set.mem_setOf_eq, Matrix.cons_val, abs_zero]
        exact ⟨by nlinarith, by nlinarith, ht⟩
      · intro v hv
        simp only [Set.mem_inter_iff, Set.mem_setOf_eq] at hv
        exact ⟨hv.1.le, hv.2.1.le, by linarith [hv.2.2]⟩) (by
      rintro v ⟨-, a, b⟩
      refine forall_fin3 ?_ ?_ ?_ <;> simp only [Matrix.cons_val, sub_zero]
      · exact abs_le_of_sq_le_sq (by nlinarith [sq_nonneg (v 1)]) ho.le
      · exact abs_le_of_sq_le_sq (by nlinarith [sq_nonneg (v 0)]) ho.le
      · linarith) mass
    (fun p => decide (p.pos 0 ^ 2 + p.pos 1 ^ 2 ≥ iR ^ 2 ∧ p.pos 0 ^ 2 + p.pos 1 ^ 2 ≤ oR ^ 2)) (by
      intro q hq
      have g2 := hq 2
      simp only [Matrix.cons_val, sub_zero] at g2
      rw [decide_eq_true_iff]
      exact ⟨fun h => ⟨h.1, h.2, by linarith⟩, fun h => ⟨h.1, h.2.1⟩⟩) 1 one_ne_zero
    (fun n k l m => ⟨(gl n.1).w m * (gl n.2.1).w l * (gl n.2.2).w k,
          ![(gl n.1).s m * oR, (gl n.2.1).s l * oR, (gl n.2.2).s k * t]⟩) (by
      intro n k l m
      simp only [gnode, Matrix.cons_val, add_zero, one_mul])).1
  refine (h.comp tendsto_cube).congr' ?_
  filter_upwards [eventually_ge_atTop 1] with n hn
  rw [GLeg.annulus, if_neg (by omega), if_neg (by omega)]

omit hgl in
theorem doubleCone_eq {R H : ℝ} (hR : 0 < R) (hH : 0 < H) : doubleCone R H = {v : V3 | |v 2| ≤ H} ∩
    ({v : V3 | Real.sqrt (v 0 ^ 2 + v 1 ^ 2) ≤ 0 - (-(R / H)) * v 2} ∪ {v : V3 | Real.sqrt (v 0 ^ 2 + v 1 ^ 2) ≤ 0 - R / H * v 2}) := by
  ext v
  simp only [doubleCone, Set.mem_setOf_eq, Set.mem_inter_iff, Set.mem_union]
  refine and_congr_right fun _ => ?_
  have e : H ^ 2 * (v 0 ^ 2 + v 1 ^ 2) ≤ R ^ 2 * v 2 ^ 2 ↔ v 0 ^ 2 + v 1 ^ 2 ≤ (R / H * v 2) ^ 2 := by
    rw [mul_pow, div_pow, div_mul_eq_mul_div, le_div_iff₀ (by positivity), mul_comm]
  rw [e, ← Real.sqrt_le_sqrt_iff (by positivity), Real.sqrt_sq_eq_abs, le_abs]
  constructor <;> rintro (h | h)
  · left; linarith
  · right; linarith
  · left; linarith
  · right; linarith

omit hgl in
theorem doubleCone_compact {R H : ℝ} (hR : 0 < R) (hH : 0 < H) : IsCompact (doubleCone R H) := by
  refine compact_of_box (W := ![2 * R, 2 * R, 2 * H]) (c := ![0, 0, 0]) ?_ ?_
  · exact (isClosed_le (f := fun v : V3 => |v 2|) (by fun_prop) (by fun_prop)).inter (isClosed_le (f := fun v : V3 => H ^ 2 * (v 0 ^ 2 + v 1 ^ 2)) (by fun_prop) (by fun_prop))
  · rintro v ⟨h1, h2⟩
    have h3 : v 2 ^ 2 ≤ H ^ 2 := sq_le_sq' (by linarith [(abs_le.1 h1).1]) (abs_le.1 h1).2
    have h4 : v 0 ^ 2 + v 1 ^ 2 ≤ R ^ 2 := by
      have : H ^ 2 * (v 0 ^ 2 + v 1 ^ 2) ≤ H ^ 2 * R ^ 2 := by nlinarith [sq_nonneg R]
      exact le_of_mul_le_mul_left this (by positivity)
    refine forall_fin3 ?_ ?_ ?_ <;> simp only [Matrix.cons_val, sub_zero] <;> rw [mul_div_cancel_left₀ _ two_ne_zero]
    · exact abs_le_of_sq_le_sq (by nlinarith [sq_nonneg (v 1)]) hR.le
    · exact abs_le_of_sq_le_sq (by nlinarith [sq_nonneg (v 0)]) hR.le
    · exact h1

/-- `cone` with as many points along z as across becomes two cones tip to tip. -/
theorem C90_cone (mass R H : ℝ) (hR : 0 < R) (hH : 0 < H) :
    GlTracks atTop (fun n : ℕ => GLeg.cone gl mass R H n n) mass (doubleCone R H) (doubleCone_compact hR hH) := by
  classical
  have h := (gl_tracks (gl := gl) (h := ![R, R, H]) (c := ![0, 0, 0]) hgl
    (forall_fin3 (by simpa using hR) (by simpa using hR) (by simpa using hH)) (doubleCone R H) (doubleCone_compact hR hH)
    (by
      rw [doubleCone_eq hR hH]
      refine nf_inter (nf_abs 2 _) ?_
      refine measure_mono_null ((frontier_union_subset _ _).trans ?_) (measure_union_null (nf_cone 0 (-(R / H))) (nf_cone 0 (R / H)))
      exact Set.union_subset_union Set.inter_subset_left Set.inter_subset_right) (by
      refine vol_ne_of_open (U := {v : V3 | |v 2| < H} ∩ {v : V3 | H ^ 2 * (v 0 ^ 2 + v 1 ^ 2) < R ^ 2 * v 2 ^ 2}) ?_ ?_ ?_
      · exact (isOpen_lt (by fun_prop) (by fun_prop)).inter (isOpen_lt (by fun_prop) (by fun_prop))
      · refine ⟨![0, 0, H / 2], ?_⟩
        simp only [Set.mem_inter_iff, Set.mem_setOf_eq, Matrix.cons_val]
        refine ⟨by rw [abs_of_pos (by positivity)]; linarith, ?_⟩
        have : 0 < R ^ 2 * (H / 2) ^ 2 := by positivity
        simpa using this
      · intro v hv
        simp only [Set.mem_inter_iff, Set.mem_setOf_eq] at hv
        exact ⟨hv.1.le, hv.2.le⟩) (by
      rintro v ⟨h1, h2⟩
      have h3 : v 2 ^ 2 ≤ H ^ 2 := sq_le_sq' (by linarith [(abs_le.1 h1).1]) (abs_le.1 h1).2
      have h4 : v 0 ^ 2 + v 1 ^ 2 ≤ R ^ 2 := by
        have : H ^ 2 * (v 0 ^ 2 + v 1 ^ 2) ≤ H ^ 2 * R ^ 2 := by nlinarith [sq_nonneg R]
        exact le_of_mul_le_mul_left this (by positivity)
      refine forall_fin3 ?_ ?_ ?_ <;> simp only [Matrix.cons_val, sub_zero]
      · exact abs_le_of_sq_le_sq (by nlinarith [sq_nonneg (v 1)]) hR.le
      · exact abs_le_of_sq_le_sq (by nlinarith [sq_nonneg (v 0)]) hR.le
      · exact h1) mass
    (fun p => decide (p.pos 0 ^ 2 + p.pos 1 ^ 2 ≤ (p.pos 2 / (H / R)) ^ 2)) (by
      intro q hq
      have g2 := hq 2
      simp only [Matrix.cons_val, sub_zero] at g2
      have e : q.pos 0 ^ 2 + q.pos 1 ^ 2 ≤ (q.pos 2 / (H / R)) ^ 2 ↔ H ^ 2 * (q.pos 0 ^ 2 + q.pos 1 ^ 2) ≤ R ^ 2 * q.pos 2 ^ 2 := by
        rw [div_div_eq_mul_div, div_pow, le_div_iff₀ (by positivity), mul_pow, mul_comm (_ + _), mul_comm (q.pos 2 ^ 2)]
      rw [decide_eq_true_iff, e]
      exact ⟨fun h => ⟨g2.le, h⟩, fun h => h.2⟩) 1 one_ne_zero
    (fun n k l m => ⟨(gl n.1).w m * (gl n.2.1).w l * (gl n.2.2).w k,
          ![(gl n.1).s m * R, (gl n.2.1).s l * R, (gl n.2.2).s k * H]⟩) (by
      intro n k l m
      simp only [gnode, Matrix.cons_val, add_zero, one_mul])).1
  refine (h.comp tendsto_cube).congr' ?_
  filter_upwards [eventually_ge_atTop 1] with n hn
  rw [GLeg.cone, if_neg hR.ne']
  extract_lets
  rw [if_neg (by omega), if_neg (by omega), if_neg hH.ne']

/-- `wedge` with as many points along z as across becomes the annular sector of twice the requested height. -/
theorem C90_wedge (mass iR oR t theta : ℝ) (h1 : 0 ≤ iR) (h2 : iR < oR) (ht : 0 < t) (hb0 : 0 < theta) (hb1 : theta ≤ Real.pi) :
    GlTracks atTop (fun n : ℕ => GLeg.wedge gl mass iR oR t theta n n) mass (prism (2 * t) (sector iR oR 0 theta))
      (prism_compact _ _ (sector_compact _ _ _ _)) := by
  classical
  have hpi := Real.pi_pos
  have ho : 0 < oR := by linarith
  set xmin := (if theta < Real.pi / 2 then Real.cos theta * iR else Real.cos theta * oR) with hxmin
  set ymax := (if theta < Real.pi / 2 then Real.sin theta * oR else oR) with hymax
  have hxp : 0 < (oR - xmin) / 2 := by
    have : 0 < oR - xmin := by
      rw [hxmin]
      split_ifs with hb
      · nlinarith [Real.cos_le_one theta]
      · have hcb : Real.cos theta ≤ 0 := Real.cos_nonpos_of_pi_div_two_le_of_le (by linarith) (by linarith)
        nlinarith
    linarith
  have hyp : 0 < ymax := by
    rw [hymax]
    split_ifs with hb
    · exact mul_pos (Real.sin_pos_of_pos_of_lt_pi hb0 (by linarith)) ho
    · exact ho
  have h := (gl_tracks (gl := gl) (h := ![(oR - xmin) / 2, ymax, t]) (c := ![(oR + xmin) / 2, 0, 0]) hgl
    (forall_fin3 hxp hyp (by simpa using ht)) (prism (2 * t) (sector iR oR 0 theta)) (prism_compact _ _ (sector_compact _ _ _ _))
    (nf_prism_sector h1 ho.le hb0 hb1) (vol_prism_sector h1 h2 (by linarith) hb0 hb1) (by
      rintro v ⟨hz1, hz2, hv⟩
      obtain ⟨a, b, c⟩ := sector_box h1 hb0 hb1 hv
      refine forall_fin3 ?_ ?_ ?_ <;> simp only [Matrix.cons_val, sub_zero]
      · rw [abs_le]; constructor <;> linarith
      · exact c
      · exact abs_le.2 ⟨by linarith, by linarith⟩) mass
    (fun p => decide (|arctan2 (p.pos 1) (p.pos 0)| ≤ theta ∧ Real.sqrt (p.pos 0 ^ 2 + p.pos 1 ^ 2) ≤ oR
          ∧ Real.sqrt (p.pos 0 ^ 2 + p.pos 1 ^ 2) ≥ iR)) (by
      intro q hq
      have h3 := hq 2
      simp only [Matrix.cons_val, sub_zero] at h3
      rw [decide_eq_true_iff, azimuth_iff hb0 hb1, Real.sqrt_le_left ho.le, ge_iff_le, Real.le_sqrt h1,
        prism_sector_eq h1 ho.le hb0 hb1]
      · simp only [Set.mem_inter_iff, Set.mem_setOf_eq]
        have : |q.pos 2| ≤ 2 * t / 2 := by linarith
        tauto
      · positivity) 1 one_ne_zero
    (fun n k l m => ⟨(gl n.1).w m * (gl n.2.1).w l * (gl n.2.2).w k,
          ![(gl n.1).s m * ((oR - xmin) / 2) + (oR + xmin) / 2, (gl n.2.1).s l * ymax, (gl n.2.2).s k * t]⟩) (by
      intro n k l m
      simp only [gnode, Matrix.cons_val, add_zero, one_mul])).2
  refine (h.comp tendsto_cube).congr' ?_
  filter_upwards [eventually_ge_atTop 1] with n hn
  rw [GLeg.wedge]
  extract_lets
  rw [if_neg (by omega), if_neg (by omega)]

omit hgl in
theorem mem_middle {d y1 y2 t : ℝ} (hd : 0 < d) (h12 : y1 < y2) (v : V3) : v ∈ middleOfPrism d y1 y2 t ↔ |v 2| ≤ t / 2 ∧ 0 ≤ v 0 ∧
    v 0 ≤ d ∧ v 0 * y1 ≤ v 1 * d ∧ v 1 * d ≤ v 0 * y2 ∧ |v 1 - (max 0 y2 + min 0 y1) / 2| ≤ (max 0 y2 - min 0 y1) / 4 := by
  simp only [middleOfPrism, prism, Set.mem_setOf_eq, mem_triangle_iff hd h12.le, abs_le]
  tauto

omit hgl in
theorem middle_eq {d y1 y2 t : ℝ} (hd : 0 < d) (h12 : y1 < y2) : middleOfPrism d y1 y2 t = {v : V3 | |v 2| ≤ t / 2} ∩ ({v : V3 | 0 ≤ v 0} ∩
      ({v : V3 | v 0 ≤ d} ∩ ({v : V3 | y1 * v 0 + -d * v 1 + 0 * v 2 ≤ 0} ∩
        ({v : V3 | -y2 * v 0 + d * v 1 + 0 * v 2 ≤ 0} ∩ ({v : V3 | v 1 ≤ (max 0 y2 + min 0 y1) / 2 + (max 0 y2 - min 0 y1) / 4} ∩
          {v : V3 | (max 0 y2 + min 0 y1) / 2 - (max 0 y2 - min 0 y1) / 4 ≤ v 1}))))) := by
  ext v
  rw [mem_middle hd h12]
  simp only [Set.mem_inter_iff, Set.mem_setOf_eq]
  refine and_congr_right fun _ => and_congr_right fun _ => and_congr_right fun _ => and_congr ?_ (and_congr ?_ ?_)
  · constructor <;> intro h <;> linarith
  · constructor <;> intro h <;> linarith
  · rw [abs_le]
    constructor <;> rintro ⟨a, b⟩ <;> constructor <;> linarith

omit hgl in
theorem middle_compact {d y1 y2 t : ℝ} (hd : 0 < d) (h12 : y1 < y2) : IsCompact (middleOfPrism d y1 y2 t) := by
  refine compact_of_box (W := ![2 * d, 4 * (max 0 y2 - min 0 y1), t]) (c := ![0, (max 0 y2 + min 0 y1) / 2, 0]) ?_ ?_
  · rw [middle_eq hd h12]
    repeat' first | exact isClosed_le (by fun_prop) (by fun_prop) | refine IsClosed.inter ?_ ?_
  · intro v hv
    obtain ⟨a, b, c, e, f, g⟩ := (mem_middle hd h12 v).1 hv
    have hb : 0 ≤ max 0 y2 - min 0 y1 := by linarith [le_max_left 0 y2, min_le_left 0 y1]
    refine forall_fin3 ?_ ?_ ?_ <;> simp only [Matrix.cons_val, sub_zero]
    · rw [abs_le]; constructor <;> linarith
    · linarith
    · exact a

omit hgl in
theorem middle_witness {d y1 y2 : ℝ} (hd : 0 < d) (h12 : y1 < y2) : ∃ x y : ℝ, 0 < x ∧ x < d ∧ x * y1 < y * d ∧ y * d < x * y2 ∧
    |y - (max 0 y2 + min 0 y1) / 2| < (max 0 y2 - min 0 y1) / 4 := by
  rcases le_or_gt 0 y1 with h1 | h1
  · have h2 : 0 < y2 := by linarith
    have hs : 0 < y1 + y2 := by linarith
    rw [max_eq_right h2.le, min_eq_left h1]
    have e : 3 / 4 * d * y2 / (y1 + y2) * (y1 + y2) = 3 / 4 * d * y2 := by field_simp
    set x := 3 / 4 * d * y2 / (y1 + y2) with hx
    have hx0 : 0 < x := by positivity
    refine ⟨x, 3 / 8 * y2, hx0, ?_, ?_, ?_, ?_⟩
    · rw [hx, div_lt_iff₀ hs]; nlinarith
    · nlinarith
    · nlinarith
    · rw [abs_lt]; constructor <;> linarith
  · rcases le_or_gt y2 0 with h2 | h2
    · have hs : y1 + y2 < 0 := by linarith
      rw [max_eq_left h2, min_eq_right h1.le]
      have e : 3 / 4 * d * y1 / (y1 + y2) * (y1 + y2) = 3 / 4 * d * y1 := div_mul_cancel₀ _ hs.ne
      set x := 3 / 4 * d * y1 / (y1 + y2) with hx
      have hx0 : 0 < x := div_pos_of_neg_of_neg (by nlinarith) hs
      refine ⟨x, 3 / 8 * y1, hx0, ?_, ?_, ?_, ?_⟩
      · rw [hx, div_lt_iff_of_neg hs]; nlinarith
      · nlinarith
      · nlinarith
      · rw [abs_lt]; constructor <;> linarith
    · rw [max_eq_right h2.le, min_eq_right h1.le]
      refine ⟨3 / 4 * d, 3 / 8 * (y1 + y2), by positivity, by linarith, by nlinarith, by nlinarith, ?_⟩
      rw [abs_lt]; constructor <;> linarith

/-- `tri_prism` becomes the middle of the prism only: its points cover half of the range of `y`. -/
theorem C90_tri_prism (mass d y1 y2 t : ℝ) (hd : 0 < d) (h12 : y1 < y2) (ht : 0 < t) :
    GlTracks atTop (fun n : ℕ × ℕ × ℕ => GLeg.triPrism gl mass d y1 y2 t n.1 n.2.1 n.2.2) mass (middleOfPrism d y1 y2 t)
      (middle_compact hd h12) := by
  classical
  have hbase : 0 < (max 0 y2 - min 0 y1) / 4 := by
    obtain ⟨x, y, -, -, -, -, h⟩ := middle_witness hd h12
    exact lt_of_le_of_lt (abs_nonneg _) h
  have h := (gl_tracks (gl := gl) (h := ![d / 2, (max 0 y2 - min 0 y1) / 4, t / 2]) (c := ![d / 2, (max 0 y2 + min 0 y1) / 2, 0]) hgl
    (forall_fin3 (by simpa using hd) hbase (by simpa using ht)) (middleOfPrism d y1 y2 t) (middle_compact hd h12)
    (by
      rw [middle_eq hd h12]
      exact nf_inter (nf_abs 2 _) (nf_inter (nf_ge 0 _) (nf_inter (nf_le 0 _) (nf_inter (nf_half _ _ _ _)
        (nf_inter (nf_half _ _ _ _) (nf_inter (nf_le 1 _) (nf_ge 1 _))))))) (by
      refine vol_ne_of_open (U := {v : V3 | |v 2| < t / 2} ∩ ({v : V3 | 0 < v 0} ∩
        ({v : V3 | v 0 < d} ∩ ({v : V3 | v 0 * y1 < v 1 * d} ∩ ({v : V3 | v 1 * d < v 0 * y2} ∩
          {v : V3 | |v 1 - (max 0 y2 + min 0 y1) / 2| < (max 0 y2 - min 0 y1) / 4}))))) ?_ ?_ ?_
      · repeat' first | exact isOpen_lt (by fun_prop) (by fun_prop) | refine IsOpen.inter ?_ ?_
      · obtain ⟨x, y, g⟩ := middle_witness hd h12
        refine ⟨![x, y, 0], ?_⟩
        simp only [Set.mem_inter_iff, Set.mem_setOf_eq, Matrix.cons_val, abs_zero]
        exact ⟨by linarith, g⟩
      · intro v hv
        rw [mem_middle hd h12]
        simp only [Set.mem_inter_iff, Set.mem_setOf_eq] at hv
        exact ⟨hv.1.le, hv.2.1.le, hv.2.2.1.le, hv.2.2.2.1.le, hv.2.2.2.2.1.le, hv.2.2.2.2.2.le⟩) (by
      intro v hv
      obtain ⟨a, b, c, e, f, g⟩ := (mem_middle hd h12 v).1 hv
      refine forall_fin3 ?_ ?_ ?_ <;> simp only [Matrix.cons_val, sub_zero]
      · rw [abs_le]; constructor <;> linarith
      · exact g
      · exact a) mass
    (fun p => decide (p.pos 0 * y1 ≤ p.pos 1 * d ∧ p.pos 0 * y2 ≥ p.pos 1 * d)) (by
      intro q hq
      have g0 := hq 0
      have g1 := hq 1
      have g2 := hq 2
      simp only [Matrix.cons_val, sub_zero] at g0 g1 g2
      rw [abs_lt] at g0
      rw [decide_eq_true_iff, mem_middle hd h12]
      exact ⟨fun h => ⟨g2.le, by linarith [g0.1], by linarith [g0.2], h.1, h.2, g1.le⟩, fun h => ⟨h.2.2.2.1, h.2.2.2.2.1⟩⟩) 1 one_ne_zero
    (fun n k l m => ⟨(gl n.1).w m * (gl n.2.1).w l * (gl n.2.2).w k,
          ![(gl n.1).s m * d / 2 + d / 2, (gl n.2.1).s l * ((max 0 y2 - min 0 y1) / 2) / 2 + (max 0 y2 + min 0 y1) / 2,
            (gl n.2.2).s k * t / 2]⟩) (by
      intro n k l m
      simp only [gnode, Matrix.cons_val, one_mul, Pt.mk.injEq, true_and]
      exact vec3_congr (by ring) (by ring) (by ring))).1
  refine h.congr' ?_
  filter_upwards [ev3] with n hn
  rw [GLeg.triPrism, if_neg (not_lt.2 h12.le)]
  extract_lets
  rw [if_neg (by omega)]

/-- So the annulus arrays do not become the documented ring of height `t`. -/
theorem C90_annulus_not_documented (mass iR oR t : ℝ) (ht : 0 < t) :
    ¬ GlTracks atTop (fun n : ℕ => GLeg.annulus gl mass iR oR t n n) mass (ring iR oR t) (ring_compact iR oR t) := by
  rintro ⟨B, h1, h2⟩
  obtain ⟨n, ⟨hok, hin⟩, hn⟩ := ((h1.and h2.inside).and (eventually_ge_atTop 2)).exists
  exact ((C74_annulus gl mass iR oR t ht n (hgl n (by omega)) _ hok).2.2 hn).1 hin

/-- A refined `sphere` array acts on every refined body outside like a point mass: force and torque converge to those of
the single mass at the origin. -/
theorem C90_sphere_acts_as_point (mass r : ℝ) (hm : mass ≠ 0) (hr : 0 < r) {κ : Type*} {G : Filter κ} {B : κ → PtArray}
    {c : Body} {T : Set V3} (hB : Tracks G B c T) (hT : IsCompact T) (R : ℝ) (hR : r < R) (hTR : ∀ v ∈ T, R ≤ modulus v) :
    ∃ (A : ℕ → PtArray) (f t : ℕ × κ → V3), (∀ᶠ n in atTop, GLeg.sphere gl mass r n = .ok (A n)) ∧
      (∀ᶠ n in atTop ×ˢ G, point_matrix_gravity (A n.1) (B n.2) = some (f n, t n)) ∧
      (∀ i, Tendsto (fun n => f n i) (atTop ×ˢ G) (𝓝 ((Body.points [⟨mass, 0⟩]).force BIG_G c i))) ∧
      (∀ i, Tendsto (fun n => t n i) (atTop ×ˢ G) (𝓝 ((Body.points [⟨mass, 0⟩]).torque BIG_G c i))) := by
  obtain ⟨A, hok, hA⟩ := C90_sphere gl hgl mass r hm hr
  have hdis : Disjoint (ball r) T := by
    rw [Set.disjoint_left]
    intro v hv hv'
    have h1 : modulus v ≤ r := hv
    have := hTR v hv'
    linarith
  obtain ⟨f, t, h1, h2, h3⟩ := C86_gravity hA hB (ball_compact r) hT hdis
  have hoff : c.OffBall R := by
    intro q hq
    refine measure_mono_null ?_ (hB.support q hq)
    intro v hv hv'
    exact absurd (hTR v hv') (not_le.2 hv)
  obtain ⟨-, e2, e3⟩ := C89_sphere_at_origin mass r hr c R hR hoff
  refine ⟨A, f, t, hok, h1, fun i => ?_, fun i => ?_⟩
  · rw [← e2 i]; exact h2 i
  · rw [← e3 i]; exact h3 i

/-- In particular `point_matrix_gravity` of the refined sphere and any fixed array outside converges to
`point_matrix_gravity` of the single point mass and that array. -/
theorem C90_sphere_point_arrays (mass r : ℝ) (hm : mass ≠ 0) (hr : 0 < r) (B : PtArray) (hB : ∀ p ∈ B, r < modulus p.pos) :
    ∃ (A : ℕ → PtArray) (f t : ℕ → V3) (f' t' : V3), (∀ᶠ n in atTop, GLeg.sphere gl mass r n = .ok (A n)) ∧
      (∀ᶠ n in atTop, point_matrix_gravity (A n) B = some (f n, t n)) ∧
      point_matrix_gravity [⟨mass, 0⟩] B = some (f', t') ∧
      (∀ i, Tendsto (fun n => f n i) atTop (𝓝 (f' i))) ∧ ∀ i, Tendsto (fun n => t n i) atTop (𝓝 (t' i)) := by
  set T : Set V3 := {v | ∃ p ∈ B, p.pos = v} with hT
  have hfin : T.Finite := by
    have : T = (fun p : Pt => p.pos) '' {p | p ∈ B} := by ext v; simp [hT]
    rw [this]
    exact (List.finite_toSet B).image _
  have hTc : IsCompact T := hfin.isCompact
  have hin : Inside B T := fun p hp => ⟨p, hp, rfl⟩
  obtain ⟨R, hR, hTR⟩ : ∃ R, r < R ∧ ∀ v ∈ T, R ≤ modulus v := by
    rcases T.eq_empty_or_nonempty with h | h
    · exact ⟨r + 1, by linarith, by rw [h]; simp⟩
    · obtain ⟨v, hv, hmin⟩ := hTc.exists_isMinOn h modulus_continuous.continuousOn
      obtain ⟨p, hp, rfl⟩ := hv
      exact ⟨modulus p.pos, hB p hp, fun w hw => hmin hw⟩
  have hBt : Tracks (pure ()) (fun _ : Unit => B) (Body.points B) T := C86_points B T hin
  obtain ⟨A, f, t, h1, h2, h3, h4⟩ := C90_sphere_acts_as_point gl hgl mass r hm hr hBt hTc R hR hTR
  have hPt : Tracks (pure ()) (fun _ : Unit => ([⟨mass, 0⟩] : PtArray)) (Body.points [⟨mass, 0⟩]) {0} :=
    C86_points _ _ (by intro p hp; rw [List.mem_singleton.1 hp]; rfl)
  have hdis : Disjoint ({0} : Set V3) T := by
    rw [Set.disjoint_singleton_left]
    intro h
    have := hTR 0 h
    rw [(modulus_eq_zero 0).2 rfl] at this
    linarith
  obtain ⟨g, s, k1, k2, k3⟩ := C86_gravity hPt hBt isCompact_singleton hTc hdis
  rw [show (pure () : Filter Unit) ×ˢ (pure () : Filter Unit) = pure ((), ()) from prod_pure_pure] at k1 k2 k3
  have hpr : Tendsto (fun n : ℕ => (n, ())) atTop (atTop ×ˢ (pure () : Filter Unit)) :=
    tendsto_id.prodMk (tendsto_pure.2 (Eventually.of_forall fun _ => rfl))
  refine ⟨A, fun n => f (n, ()), fun n => t (n, ()), g ((), ()), s ((), ()), h1, hpr.eventually h2, eventually_pure.1 k1,
    fun i => ?_, fun i => ?_⟩
  · have e := tendsto_nhds_unique (tendsto_pure_left.2 fun s hs => mem_of_mem_nhds hs) (k2 i)
    rw [e]
    exact (h3 i).comp hpr
  · have e := tendsto_nhds_unique (tendsto_pure_left.2 fun s hs => mem_of_mem_nhds hs) (k3 i)
    rw [e]
    exact (h4 i).comp hpr

omit hgl in
/-- Instances: Gauss-Legendre rules exist, a sphere of radius 1 next to two masses, a brick, a prism. -/
example : ∃ gl : ℕ → Rule,
    (∃ (A : ℕ → PtArray) (f t : ℕ → V3) (f' t' : V3), (∀ᶠ n in atTop, GLeg.sphere gl 5 1 n = .ok (A n)) ∧
      (∀ᶠ n in atTop, point_matrix_gravity (A n) [⟨1, ![2, 0, 0]⟩, ⟨2, ![0, 3, 0]⟩] = some (f n, t n)) ∧
      point_matrix_gravity [⟨5, 0⟩] [⟨1, ![2, 0, 0]⟩, ⟨2, ![0, 3, 0]⟩] = some (f', t') ∧
      (∀ i, Tendsto (fun n => f n i) atTop (𝓝 (f' i))) ∧ ∀ i, Tendsto (fun n => t n i) atTop (𝓝 (t' i))) ∧
    GlTracks atTop (fun n : ℕ × ℕ × ℕ => GLeg.rectangle gl 2 1 2 3 n.1 n.2.1 n.2.2) 2 (brick 1 2 3) (brick_compact 1 2 3) := by
  obtain ⟨gl, hgl⟩ := C90_rules_exist
  refine ⟨gl, C90_sphere_point_arrays gl hgl 5 1 (by norm_num) (by norm_num) _ ?_,
    C90_rectangle gl hgl 2 1 2 3 (by norm_num) (by norm_num) (by norm_num)⟩
  intro p hp
  simp only [List.mem_cons, List.not_mem_nil, or_false] at hp
  rcases hp with rfl | rfl
  · simp only [modulus, Matrix.cons_val]
    rw [Real.lt_sqrt (by norm_num)]; norm_num
  · simp only [modulus, Matrix.cons_val]
    rw [Real.lt_sqrt (by norm_num)]; norm_num

end Newt
