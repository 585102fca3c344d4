import Verif.Proofs.MpcShapes
import Verif.Props.QlmACH
import Verif.Props.QlmNum

/-! # Lemmas on the reader of `.mpc` files -/

namespace Newt.Multi

open Newt.Spec Newt.Qlm MeasureTheory

variable {L : ℕ}

@[simp] theorem Except.ok_bind {ε α β : Type} (a : α) (f : α → Except ε β) : ((Except.ok a : Except ε α) >>= f) = f a := rfl

/-! ## Text -/

theorem mapM_ok {α β : Type} (f : α → Except Err β) (ws : List α) (xs : List β)
    (h : List.Forall₂ (fun w x => f w = .ok x) ws xs) : ws.mapM f = .ok xs := by
  induction h with
  | nil => rfl
  | cons h1 _ ih => rw [List.mapM_cons, h1, ih]; rfl

theorem floats_ok {num : Str → Option ℝ} {txt : Str} {xs : List ℝ} (h : Numbers num txt xs) :
    floats num txt = .ok xs := by
  obtain ⟨ws, rfl, hne, hc, hf⟩ := h
  rw [floats, List.splitOn_intercalate _ hc hne]
  refine mapM_ok _ _ _ (hf.imp ?_)
  intro w x hw
  rw [float, hw]

theorem density_ok {e : Env L} {l0 l1 l2 : Str} {rest : List Str} {d : ℝ} (h : FirstNumber e.num l2 d) :
    density e (l0 :: l1 :: l2 :: rest) = .ok (d * 1000) := by
  obtain ⟨w, ws, rfl, hc, hf⟩ := h
  have : nth (l0 :: l1 :: [','].intercalate (w :: ws) :: rest) 2 = .ok ([','].intercalate (w :: ws)) := rfl
  rw [density, this]
  simp only [bind, Except.bind]
  rw [List.splitOn_intercalate _ hc (by simp)]
  simp only [float, hf]

theorem params_ok {e : Env L} {fac : ℝ} {l0 l1 : Str} {rest : List Str} {xs : List ℝ} (h : Numbers e.num l1 xs) :
    params e fac (l0 :: l1 :: rest) = .ok (xs.map (· * fac)) := by
  have : nth (l0 :: l1 :: rest) 1 = .ok l1 := rfl
  rw [params, this]
  change (do let v ← floats e.num l1; Except.ok (v.map (· * fac))) = _
  rw [floats_ok h]; rfl

theorem has_iff (kw : String) (line : Str) : has kw line ↔ ∃ a b, line = a ++ kw.toList ++ b := by
  constructor
  · rintro ⟨a, b, h⟩; exact ⟨a, b, h.symm⟩
  · rintro ⟨a, b, h⟩; exact ⟨a, b, h.symm⟩

theorem cutAt_none (kw : Str) (s : Str) (h : ¬ kw <:+: s) : cutAt kw s = none := by
  induction s with
  | nil =>
    rw [cutAt, if_neg]
    intro h1; exact h h1.isInfix
  | cons c s ih =>
    rw [cutAt, if_neg (fun h1 => h h1.isInfix), ih]
    · rfl
    · intro h1; exact h (h1.trans (List.suffix_cons c s).isInfix)

theorem cutAt_some (k : Char) (kw pre txt : Str) (h : ∀ c ∈ pre, k ≠ c) :
    cutAt (k :: kw) (pre ++ k :: kw ++ txt) = some (pre, txt) := by
  induction pre with
  | nil =>
    have : (k :: kw) <+: (k :: kw ++ txt) := List.prefix_append _ _
    rw [List.nil_append]
    change cutAt (k :: kw) (k :: (kw ++ txt)) = _
    rw [cutAt, if_pos (by simpa using this)]
    simp
  | cons c pre ih =>
    change cutAt (k :: kw) (c :: (pre ++ k :: kw ++ txt)) = _
    rw [cutAt, if_neg, ih fun d hd => h d (List.mem_cons_of_mem _ hd)]
    · rfl
    · intro hp
      rw [List.cons_prefix_cons] at hp
      exact h c List.mem_cons_self hp.1

theorem between_ok {line txt : Str} {kw : String} (h : Args line kw txt) (hk : kw.toList ≠ []) :
    between kw (uncomment line) = .ok txt := by
  obtain ⟨pre, h1, h2, h3⟩ := h
  obtain ⟨k, ks, hks⟩ := List.exists_cons_of_ne_nil hk
  rw [between, h1, hks, cutAt_some]
  · simp only
    rw [cutAt_none]
    have := h3
    rwa [has, hks] at this
  · intro c hc
    have := h2 c hc
    rw [hks] at this
    simpa using this

/-! ## Shapes -/

theorem ofRes_filled (rho mass : ℝ) (S : Set V3) (hS : IsCompact S) (hv : (volume S).toReal ≠ 0)
    (h : mass = rho * (volume S).toReal) :
    ofRes (.ok (Mom.ofFn L (uniformMoment mass S))) = .ok (some (Mom.ofFn L (Body.filled rho S hS).inner)) := by
  rw [uniform_filled rho mass S hS hv h, ofRes]

theorem msub_filled {a b c : Body} (h : ∀ l m, a.inner l m = b.inner l m + c.inner l m) :
    msub (Mom.ofFn L a.inner) (Mom.ofFn L b.inner) = Mom.ofFn L c.inner := by
  apply Mom.ext_get
  intro l m hl hm
  rw [msub, Mom.get_ofFn _ hl hm, Mom.get_ofFn _ hl hm, Mom.get_ofFn _ hl hm, Mom.get_ofFn _ hl hm, h]
  ring

theorem madd_inner (a b : Body) :
    madd (Mom.ofFn L a.inner) (Mom.ofFn L b.inner) = Mom.ofFn L (Body.inner (a ++ b)) := by
  apply Mom.ext_get
  intro l m hl hm
  rw [madd, Mom.get_ofFn _ hl hm, Mom.get_ofFn _ hl hm, Mom.get_ofFn _ hl hm, Mom.get_ofFn _ hl hm, Body.inner_append]

theorem params_bind {e : Env L} {fac : ℝ} {l0 l1 : Str} {rest : List Str} {xs : List ℝ} {α : Type}
    (f : List ℝ → Except Err α) (h : Numbers e.num l1 xs) :
    (params e fac (l0 :: l1 :: rest) >>= f) = f (xs.map (· * fac)) := by
  rw [params_ok h]; rfl

theorem density_bind {e : Env L} {l0 l1 l2 : Str} {rest : List Str} {d : ℝ} {α : Type} (f : ℝ → Except Err α)
    (h : FirstNumber e.num l2 d) : (density e (l0 :: l1 :: l2 :: rest) >>= f) = f (d * 1000) := by
  rw [density_ok h]; rfl

section
variable (e : Env L) (fac : ℝ) (hfac : 0 < fac) (l0 l1 l2 : Str) (rest : List Str) (dens : ℝ)
  (hd : FirstNumber e.num l2 dens)
include hfac hd

theorem make_sphere (r : ℝ) (h : 0 < r) (hv : Numbers e.num l1 [r]) (hS : IsCompact (ball (r * fac))) :
    makeShape e fac (l0 :: l1 :: l2 :: rest) "sphere".toList
      = some (.ok (some (Mom.ofFn L (Body.filled (dens * 1000) (ball (r * fac)) hS).inner))) := by
  have hr : 0 < r * fac := by positivity
  rw [makeShape, if_neg (by decide), if_pos rfl, params_bind _ hv]
  simp only [List.map_cons, List.map_nil]
  rw [density_bind _ hd, C36_sphere L _ _ hr, Option.some.injEq, Except.ok.injEq, Option.some.injEq, uniform_filled (dens * 1000)]
  · exact (ball_vol _ hr).ne'
  · rw [ball_volume _ hr.le]; ring

theorem make_cylinder (Ri Ro H phi0 phi1 : ℝ) (h1 : 0 ≤ Ri) (h2 : Ri < Ro) (h3 : 0 < H) (h4 : phi0 < phi1)
    (h5 : phi1 ≤ phi0 + 360) (hv : Numbers e.num l1 [Ri, Ro, H, phi0, phi1])
    (hS : IsCompact (prism (H * fac) (sector (Ri * fac) (Ro * fac) ((phi1 + phi0) / 2 * (Real.pi / 180))
      ((phi1 - phi0) / 2 * (Real.pi / 180))))) :
    makeShape e fac (l0 :: l1 :: l2 :: rest) "cylinder".toList
      = some (.ok (some (Mom.ofFn L (Body.filled (dens * 1000) _ hS).inner))) := by
  have hpi := Real.pi_pos
  have hR : Ri * fac < Ro * fac := by gcongr
  have hH : 0 < H * fac := by positivity
  have hRi : 0 ≤ Ri * fac := by positivity
  have hp0 : 0 < (phi1 - phi0) / 2 * (Real.pi / 180) := mul_pos (by linarith) (by positivity)
  have hp1 : (phi1 - phi0) / 2 * (Real.pi / 180) ≤ Real.pi := by nlinarith
  have hn : nth (l0 :: l1 :: l2 :: rest) 1 = .ok l1 := rfl
  rw [makeShape, if_pos rfl, hn, Except.ok_bind, floats_ok hv, Except.ok_bind]
  simp only
  rw [density_bind _ hd,
    show (phi1 + phi0) * Real.pi / 180 / 2 = (phi1 + phi0) / 2 * (Real.pi / 180) by ring,
    show (phi1 - phi0) * Real.pi / 180 / 2 = (phi1 - phi0) / 2 * (Real.pi / 180) by ring,
    C36_annulus L _ _ _ _ _ _ hH hRi hR hp0 hp1, Option.some.injEq]
  have hvol := prism_vol _ hH (sector (Ri * fac) (Ro * fac) ((phi1 + phi0) / 2 * (Real.pi / 180))
      ((phi1 - phi0) / 2 * (Real.pi / 180)))
  rw [area_sector _ _ _ _ hRi hR.le hp0.le hp1] at hvol
  apply ofRes_filled
  · rw [hvol]
    have : 0 < (Ro * fac) ^ 2 - (Ri * fac) ^ 2 := by nlinarith
    positivity
  · rw [hvol]; ring

theorem make_cone (LR H : ℝ) (h1 : 0 < LR) (h2 : 0 < H) (UR : ℝ) (hv : Numbers e.num l1 [LR, UR, H])
    (hS : IsCompact (coneOver (H * fac) (disc (LR * fac)))) :
    makeShape e fac (l0 :: l1 :: l2 :: rest) "cone".toList
      = some (.ok (some (Mom.ofFn L (Body.filled (dens * 1000) _ hS).inner))) := by
  have hH : 0 < H * fac := by positivity
  have hR : 0 < LR * fac := by positivity
  rw [makeShape, if_neg (by decide), if_neg (by decide), if_pos rfl, params_bind _ hv]
  simp only [List.map_cons, List.map_nil]
  rw [density_bind _ hd, C36_cone L _ _ _ _ _ hH hR Real.pi_pos le_rfl, Option.some.injEq]
  have hvol := cone_vol _ hH (disc (LR * fac)) (disc_compact _ hR.le)
  rw [area_disc _ hR.le] at hvol
  simp only [← disc_sector _ hR.le]
  apply ofRes_filled
  · rw [hvol]; have := Real.pi_pos; positivity
  · rw [hvol]; ring

theorem make_triangle (d y1 y2 t : ℝ) (h1 : 0 < d) (h2 : y1 ≠ y2) (h3 : 0 < t) (hv : Numbers e.num l1 [d, y1, y2, t])
    (hS : IsCompact (prism (t * fac) (triangle (d * fac, y1 * fac) (d * fac, y2 * fac)))) :
    makeShape e fac (l0 :: l1 :: l2 :: rest) "triangle".toList
      = some (.ok (some (Mom.ofFn L (Body.filled (dens * 1000) _ hS).inner))) := by
  have ht : 0 < t * fac := by positivity
  have hd' : 0 < d * fac := by positivity
  have hy : y1 * fac ≠ y2 * fac := fun h => h2 (mul_right_cancel₀ hfac.ne' h)
  rw [makeShape, if_neg (by decide), if_neg (by decide), if_neg (by decide), if_pos rfl, params_bind _ hv]
  simp only [List.map_cons, List.map_nil]
  rw [density_bind _ hd, C36_tri_prism L _ _ _ _ _ ht hd'.ne' hy, Option.some.injEq]
  have hvol := prism_vol _ ht (triangle (d * fac, y1 * fac) (d * fac, y2 * fac))
  rw [area_tri _ _ _ hd'] at hvol
  apply ofRes_filled
  · rw [hvol]
    have : 0 < |y2 * fac - y1 * fac| := abs_pos.2 (sub_ne_zero.2 hy.symm)
    positivity
  · rw [hvol]; ring

theorem make_tetrahedron (x y z : ℝ) (h1 : 0 < x) (h2 : 0 < y) (h3 : 0 < z) (hv : Numbers e.num l1 [x, y, z])
    (hS : IsCompact (coneOver (z * fac) (triangle (x * fac, 0) (0, y * fac)))) :
    makeShape e fac (l0 :: l1 :: l2 :: rest) "tetrahedron".toList
      = some (.ok (some (Mom.ofFn L (Body.filled (dens * 1000) _ hS).inner))) := by
  have hx : 0 < x * fac := by positivity
  have hy : 0 < y * fac := by positivity
  have hz : 0 < z * fac := by positivity
  rw [makeShape, if_neg (by decide), if_neg (by decide), if_neg (by decide), if_neg (by decide), if_neg (by decide),
    if_neg (by decide), if_pos rfl, params_bind _ hv]
  simp only [List.map_cons, List.map_nil]
  rw [density_bind _ hd, C36_tetrahedron L _ _ _ _ hx hy hz, Option.some.injEq]
  have hvol := cone_vol _ hz _ (triangle_compact (x * fac, 0) (0, y * fac))
  rw [area_right _ _ hx hy] at hvol
  apply ofRes_filled
  · rw [hvol]; positivity
  · rw [hvol]; ring

theorem make_pyramid (x y z : ℝ) (h1 : 0 < x) (h2 : 0 < y) (h3 : 0 < z) (hv : Numbers e.num l1 [x, y, z])
    (hS : IsCompact (coneOver (z * fac) (rectangle (x * fac) (y * fac)))) :
    makeShape e fac (l0 :: l1 :: l2 :: rest) "pyramid".toList
      = some (.ok (some (Mom.ofFn L (Body.filled (dens * 1000) _ hS).inner))) := by
  have hx : 0 < x * fac := by positivity
  have hy : 0 < y * fac := by positivity
  have hz : 0 < z * fac := by positivity
  rw [makeShape, if_neg (by decide), if_neg (by decide), if_neg (by decide), if_neg (by decide), if_neg (by decide),
    if_neg (by decide), if_neg (by decide), if_neg (by decide), if_neg (by decide), if_pos rfl, params_bind _ hv]
  simp only [List.map_cons, List.map_nil]
  rw [density_bind _ hd, C36_pyramid L _ _ _ _ (half_pos hx) (half_pos hy) hz, Option.some.injEq]
  have hvol := cone_vol _ hz _ (rectangle_compact (x * fac) (y * fac))
  rw [area_rect _ _ hx hy] at hvol
  simp only [show 2 * (x * fac / 2) = x * fac by ring, show 2 * (y * fac / 2) = y * fac by ring]
  apply ofRes_filled
  · rw [hvol]; positivity
  · rw [hvol]; ring

theorem make_box (x y z : ℝ) (h1 : 0 < x) (h2 : 0 < y) (h3 : 0 < z) (hv : Numbers e.num l1 [x, y, z])
    (hS : IsCompact (prism (z * fac) (rectangle (x * fac) (y * fac)))) :
    makeShape e fac (l0 :: l1 :: l2 :: rest) "rectangle".toList
      = some (.ok (some (Mom.ofFn L (Body.filled (dens * 1000) _ hS).inner))) := by
  have hx : 0 < x * fac := by positivity
  have hy : 0 < y * fac := by positivity
  have hz : 0 < z * fac := by positivity
  rw [makeShape, if_neg (by decide), if_neg (by decide), if_neg (by decide), if_neg (by decide), if_neg (by decide),
    if_neg (by decide), if_neg (by decide), if_neg (by decide), if_neg (by decide), if_neg (by decide), if_pos rfl,
    params_bind _ hv]
  simp only [List.map_cons, List.map_nil]
  rw [density_bind _ hd, C36_rect_prism L _ _ _ _ _ hz hx hy, Option.some.injEq]
  have hvol := prism_vol _ hz (rectangle (x * fac) (y * fac))
  rw [area_rect _ _ hx hy] at hvol
  simp only [rotated_zero]
  apply ofRes_filled
  · rw [hvol]; positivity
  · rw [hvol]; ring

theorem make_partcylinder (r d h : ℝ) (h1 : 0 < d) (h2 : d < r) (h3 : 0 < h) (hv : Numbers e.num l1 [r, d, h])
    (hS : IsCompact (prism (h * fac) (Spec.segment (r * fac) (d * fac)))) :
    makeShape e fac (l0 :: l1 :: l2 :: rest) "partcylinder".toList
      = some (.ok (some (Mom.ofFn L (Body.filled (dens * 1000) _ hS).inner))) := by
  have hd' : 0 < d * fac := by positivity
  have hr' : d * fac < r * fac := by gcongr
  have hr0 : 0 < r * fac := by linarith
  have hh : 0 < h * fac := by positivity
  rw [makeShape, if_neg (by decide), if_neg (by decide), if_neg (by decide), if_neg (by decide), if_neg (by decide),
    if_pos rfl, params_bind _ hv]
  simp only [List.map_cons, List.map_nil]
  have hq1 : d * fac / (r * fac) < 1 := (div_lt_one hr0).2 hr'
  have hq0 : 0 < d * fac / (r * fac) := by positivity
  rw [density_bind _ hd, if_neg hr0.ne', if_neg (by push Not; constructor <;> linarith)]
  set p := Real.arccos (d * fac / (r * fac)) with hp
  have hp0 : 0 < p := Real.arccos_pos.2 hq1
  have hp2 : p < Real.pi / 2 := Real.arccos_lt_pi_div_two.2 hq0
  have hc : Real.cos p = d * fac / (r * fac) := Real.cos_arccos (by linarith) hq1.le
  have hs : 0 < Real.sin p := Real.sin_pos_of_pos_of_lt_pi hp0 (by linarith [Real.pi_pos])
  have hr00 : 0 < r := by linarith
  have hrc : r * fac * Real.cos p = d * fac := by rw [hc]; field_simp
  have hA := prism_compact (h * fac) _ (sector_compact 0 (r * fac) 0 p)
  have hT := prism_compact (h * fac) _ (triangle_compact (r * fac * Real.cos (0 - p), r * fac * Real.sin (0 - p))
    (r * fac * Real.cos (0 + p), r * fac * Real.sin (0 + p)))
  rw [C36_annulus L _ _ _ _ _ _ hh le_rfl hr0 hp0 (by linarith),
    C36_tri_iso_prism2 L _ _ _ _ _ hh hr0 hp0 hp2]
  have v1 := prism_vol _ hh (sector 0 (r * fac) 0 p)
  rw [area_sector _ _ _ _ le_rfl hr0.le hp0.le (by linarith)] at v1
  have v2 := prism_vol _ hh (triangle (r * fac * Real.cos (0 - p), r * fac * Real.sin (0 - p))
    (r * fac * Real.cos (0 + p), r * fac * Real.sin (0 + p)))
  have ea : (volume (triangle (r * fac * Real.cos (0 - p), r * fac * Real.sin (0 - p))
    (r * fac * Real.cos (0 + p), r * fac * Real.sin (0 + p)))).toReal = d * fac * (r * fac * Real.sin p) := by
    rw [zero_sub, zero_add, Real.cos_neg, Real.sin_neg, hrc, area_tri _ _ _ hd', abs_of_nonneg (by nlinarith)]
    ring
  rw [ea] at v2
  rw [ofRes_filled (dens * 1000) _ _ hA, Except.ok_bind, ofRes_filled (dens * 1000) _ _ hT, Except.ok_bind]
  · simp only [subO, Option.bind_some, Option.map_some]
    rw [msub_filled (c := Body.filled (dens * 1000) _ hS)]
    intro l m
    refine inner_cut _ (d * fac) _ _ _ hA hT hS (sector_split _ _ _ hd' hr') ?_ ?_ l m
    · rintro v ⟨_, _, s, t, s0, t0, st, e1, e2⟩
      simp only [zero_sub, zero_add, Real.cos_neg, hrc] at e1
      rw [e1]; nlinarith
    · rintro v ⟨_, _, h5, _⟩; exact h5
  · rw [v2]; positivity
  · rw [v2]; ring
  · rw [v1]; have := Real.pi_pos; nlinarith [mul_pos hh (mul_pos hp0 (pow_pos hr0 2))]
  · rw [v1]; ring

/-- The trapezoid before flipping. -/
theorem trap_base (w3 w4 h t rho : ℝ) (h1 : 0 < w3) (h2 : w3 < w4) (hh : 0 < h) (ht : 0 < t)
    (hS : IsCompact (prism t (trapezoid w3 w4 h))) :
    ∃ a b : Mom L, ofRes (triIsoPrism L (rho * t * w4 * (h + w3 * h / (w4 - w3)) / 2) t w4 (h + w3 * h / (w4 - w3)) 0)
        = .ok (some a) ∧
      ofRes (triIsoPrism L (rho * t * w3 * (w3 * h / (w4 - w3)) / 2) t w3 (w3 * h / (w4 - w3)) 0) = .ok (some b) ∧
      translate_qlm (msub a b) ![-(w3 * h / (w4 - w3)), 0, 0] = Mom.ofFn L (Body.filled rho _ hS).inner := by
  have hd' : 0 < w4 - w3 := by linarith
  have hsplit := iso_split w3 w4 h t h1 h2 hh
  set hs := w3 * h / (w4 - w3) with hhs
  have hs0 : 0 < hs := by positivity
  have hb0 : 0 < h + hs := by linarith
  have hw4 : 0 < w4 := by linarith
  have hB := prism_compact t _ (triangle_compact (h + hs, -(w4 / 2)) (h + hs, w4 / 2))
  have hA := prism_compact t _ (triangle_compact (hs, -(w3 / 2)) (hs, w3 / 2))
  have hM : IsCompact ((fun v => v + ![hs, 0, 0]) '' prism t (trapezoid w3 w4 h)) := hS.image (by fun_prop)
  have v1 := prism_vol _ ht (triangle (h + hs, -(w4 / 2)) (h + hs, w4 / 2))
  rw [area_tri_le _ _ _ hb0 (by linarith)] at v1
  have v2 := prism_vol _ ht (triangle (hs, -(w3 / 2)) (hs, w3 / 2))
  rw [area_tri_le _ _ _ hs0 (by linarith)] at v2
  refine ⟨Mom.ofFn L (Body.filled rho _ hB).inner, Mom.ofFn L (Body.filled rho _ hA).inner, ?_, ?_, ?_⟩
  · rw [C36_tri_iso_prism L _ _ _ _ _ ht hw4 hb0.ne']
    simp only [rotated_zero]
    apply ofRes_filled
    · rw [v1, show w4 / 2 - -(w4 / 2) = w4 by ring]; positivity
    · rw [v1]; ring
  · rw [C36_tri_iso_prism L _ _ _ _ _ ht h1 hs0.ne']
    simp only [rotated_zero]
    apply ofRes_filled
    · rw [v2, show w3 / 2 - -(w3 / 2) = w3 by ring]; positivity
    · rw [v2]; ring
  · rw [msub_filled (c := Body.filled rho _ hM), C56_translate]
    · apply Mom.ext_get
      intro l m hl hm
      rw [Mom.get_ofFn _ hl hm, Mom.get_ofFn _ hl hm]
      refine inner_filled_translate rho _ _ hM hS _ ?_ l m
      rw [Set.image_image]
      have hz : (![hs, 0, 0] + ![-hs, 0, 0] : V3) = 0 := by funext i; fin_cases i <;> simp
      simp only [add_assoc, hz, add_zero, Set.image_id']
    · intro l m
      refine inner_cut rho hs _ _ _ hB hA hM hsplit ?_ ?_ l m
      · rintro v ⟨_, _, h5⟩
        exact ((mem_iso _ _ _ _ hs0 h1.le).1 h5).2.1
      · rintro _ ⟨v, ⟨_, _, h5, _⟩, rfl⟩
        simp only at h5
        simp; exact h5

theorem make_trapezoid (w1 w2 h t : ℝ) (h1 : 0 < w1) (h2 : 0 < w2) (h3 : w1 ≠ w2) (h4 : 0 < h) (h5 : 0 < t)
    (hv : Numbers e.num l1 [w1, w2, h, t])
    (hS : IsCompact (prism (t * fac) (trapezoid (w1 * fac) (w2 * fac) (h * fac)))) :
    makeShape e fac (l0 :: l1 :: l2 :: rest) "trapezoid".toList
      = some (.ok (some (Mom.ofFn L (Body.filled (dens * 1000) _ hS).inner))) := by
  have hh : 0 < h * fac := by positivity
  have ht : 0 < t * fac := by positivity
  have hw1 : 0 < w1 * fac := by positivity
  have hw2 : 0 < w2 * fac := by positivity
  rw [makeShape, if_neg (by decide), if_neg (by decide), if_neg (by decide), if_neg (by decide), if_pos rfl,
    params_bind _ hv]
  simp only [List.map_cons, List.map_nil]
  rw [density_bind _ hd]
  rcases lt_or_gt_of_ne h3 with hlt | hlt
  · have hl : w1 * fac < w2 * fac := by gcongr
    obtain ⟨a, b, ea, eb, et⟩ := trap_base (L := L) e fac hfac l2 dens hd (w1 * fac) (w2 * fac) (h * fac) (t * fac) (dens * 1000) hw1 hl hh ht hS
    simp only [if_neg hl.not_gt, if_neg (sub_pos.2 hl).ne', ea, eb, Except.ok_bind, subO, Option.bind_some,
      Option.map_some, et]
  · have hl : w2 * fac < w1 * fac := by gcongr
    have hF := prism_compact (t * fac) _ (trapezoid_compact (w2 * fac) (w1 * fac) (h * fac) hh)
    obtain ⟨a, b, ea, eb, et⟩ := trap_base (L := L) e fac hfac l2 dens hd (w2 * fac) (w1 * fac) (h * fac) (t * fac) (dens * 1000) hw2 hl hh ht hF
    simp only [if_pos hl, if_neg (sub_pos.2 hl).ne', ea, eb, Except.ok_bind, subO, Option.bind_some,
      Option.map_some, et, rotateO, add_sub_cancel_right]
    have hM : IsCompact ((fun v => v + ![-(h * fac), 0, 0]) '' prism (t * fac) (trapezoid (w2 * fac) (w1 * fac) (h * fac))) :=
      hF.image (by fun_prop)
    have e1 : translate_qlm (Mom.ofFn L (Body.filled (dens * 1000) _ hF).inner) ![-(h * fac), 0, 0]
        = Mom.ofFn L (Body.filled (dens * 1000) _ hM).inner := by
      rw [C56_translate]
      apply Mom.ext_get
      intro l m hl hm
      rw [Mom.get_ofFn _ hl hm, Mom.get_ofFn _ hl hm]
      exact inner_filled_translate _ _ _ hF hM _ rfl l m
    rw [e1, C56_rotate, Option.some.injEq, Except.ok.injEq, Option.some.injEq]
    apply Mom.ext_get
    intro l m hl hm
    rw [Mom.get_ofFn _ hl hm, Mom.get_ofFn _ hl hm]
    exact inner_filled_turn _ _ _ _ hM hS (trapezoid_flip _ _ _ _ hh) l m

theorem make_platehole (r t theta : ℝ) (hv : Numbers e.num l1 [r, t, theta]) :
    makeShape e fac (l0 :: l1 :: l2 :: rest) "platehole".toList
      = some (ofAch (QlmACH.platehole L (dens * 1000) (t * fac) (r * fac) (theta * (Real.pi / 180)))) := by
  have hn : nth (l0 :: l1 :: l2 :: rest) 1 = .ok l1 := rfl
  rw [makeShape, if_neg (by decide), if_neg (by decide), if_neg (by decide), if_neg (by decide), if_neg (by decide),
    if_neg (by decide), if_neg (by decide), if_pos rfl, hn, Except.ok_bind, floats_ok hv, Except.ok_bind]
  simp only
  rw [density_bind _ hd]

theorem make_platehole_ok (r t theta : ℝ) (h0 : L ≤ 5) (h1 : 0 < r) (h2 : 0 < t) (h3 : -90 < theta) (h4 : theta < 90)
    (hv : Numbers e.num l1 [r, t, theta])
    (hS : IsCompact (drilledSlab (t * fac) (r * fac) (theta * (Real.pi / 180)))) :
    makeShape e fac (l0 :: l1 :: l2 :: rest) "platehole".toList
      = some (.ok (some (Mom.ofFn L (Body.filled (dens * 1000) _ hS).inner))) := by
  have hpi := Real.pi_pos
  have hth : |theta * (Real.pi / 180)| < Real.pi / 2 := abs_lt.2 ⟨by nlinarith, by nlinarith⟩
  rw [make_platehole e fac hfac l0 l1 l2 rest dens hd r t theta hv, C68_platehole L _ _ _ _ (by positivity) (by positivity) hth, ofAch]
  rw [Option.some.injEq, Except.ok.injEq, Option.some.injEq]
  apply Mom.ext_get
  intro l m hl hm
  rw [Mom.get_ofFn _ hl hm, Mom.get_ofFn _ hl hm, inner_filled, if_pos (by omega), densityInner]

theorem make_cylhole (r R : ℝ) (h1 : 0 < r) (h2 : r ≤ R) (hv : Numbers e.num l1 [r, R])
    (hS : IsCompact (drilledYCylinder (r * fac) (R * fac))) :
    makeShape e fac (l0 :: l1 :: l2 :: rest) "cylhole".toList
      = some (.ok (some (Mom.ofFn L (Body.filled (dens * 1000) _ hS).inner))) := by
  have hr : 0 < r * fac := by positivity
  have hR : r * fac ≤ R * fac := by gcongr
  have hX : IsCompact (steinmetz (r * fac) (R * fac)) := by
    have := hS.image (continuous_turnZ (-(Real.pi / 2)))
    rwa [← turn_steinmetz, turnZ_back] at this
  rw [makeShape, if_neg (by decide), if_neg (by decide), if_neg (by decide), if_neg (by decide), if_neg (by decide),
    if_neg (by decide), if_neg (by decide), if_neg (by decide), if_pos rfl, params_bind _ hv]
  simp only [List.map_cons, List.map_nil]
  rw [density_bind _ hd, C63_steinmetz L _ _ _ hr hR, ofRes]
  have e1 : Mom.ofFn L (densityInner (dens * 1000) (steinmetz (r * fac) (R * fac)))
      = Mom.ofFn L (Body.filled (dens * 1000) _ hX).inner := by
    apply Mom.ext_get
    intro l m hl hm
    rw [Mom.get_ofFn _ hl hm, Mom.get_ofFn _ hl hm, inner_filled, densityInner]
  rw [e1, Except.ok_bind, rotateO, Option.bind_some, C56_rotate, Option.some.injEq, Except.ok.injEq, Option.some.injEq]
  apply Mom.ext_get
  intro l m hl hm
  rw [Mom.get_ofFn _ hl hm, Mom.get_ofFn _ hl hm]
  exact inner_filled_turn' _ _ _ _ hX hS (turn_steinmetz _ _) l m

theorem make_ok {name : String} {vals : List ℝ} {S : Set V3} (hm : Makes L fac name vals S) (hS : IsCompact S)
    (hv : Numbers e.num l1 vals) :
    makeShape e fac (l0 :: l1 :: l2 :: rest) name.toList
      = some (.ok (some (Mom.ofFn L (Body.filled (dens * 1000) S hS).inner))) := by
  cases hm with
  | cylinder Ri Ro H phi0 phi1 h1 h2 h3 h4 h5 => exact make_cylinder e fac hfac l0 l1 l2 rest dens hd Ri Ro H phi0 phi1 h1 h2 h3 h4 h5 hv hS
  | sphere r h => exact make_sphere e fac hfac l0 l1 l2 rest dens hd r h hv hS
  | cone LR H h1 h2 => exact make_cone e fac hfac l0 l1 l2 rest dens hd LR H h1 h2 0 hv hS
  | triangle d y1 y2 t h1 h2 h3 => exact make_triangle e fac hfac l0 l1 l2 rest dens hd d y1 y2 t h1 h2 h3 hv hS
  | trapezoid w1 w2 h t h1 h2 h3 h4 h5 => exact make_trapezoid e fac hfac l0 l1 l2 rest dens hd w1 w2 h t h1 h2 h3 h4 h5 hv hS
  | partcylinder r d h h1 h2 h3 => exact make_partcylinder e fac hfac l0 l1 l2 rest dens hd r d h h1 h2 h3 hv hS
  | tetrahedron x y z h1 h2 h3 => exact make_tetrahedron e fac hfac l0 l1 l2 rest dens hd x y z h1 h2 h3 hv hS
  | platehole r t theta h0 h1 h2 h3 h4 => exact make_platehole_ok e fac hfac l0 l1 l2 rest dens hd r t theta h0 h1 h2 h3 h4 hv hS
  | cylhole r R h1 h2 => exact make_cylhole e fac hfac l0 l1 l2 rest dens hd r R h1 h2 hv hS
  | pyramid x y z h1 h2 h3 => exact make_pyramid e fac hfac l0 l1 l2 rest dens hd x y z h1 h2 h3 hv hS
  | box x y z h1 h2 h3 => exact make_box e fac hfac l0 l1 l2 rest dens hd x y z h1 h2 h3 hv hS

end

/-! ## One line -/

theorem command_some {line : Str} {k : String} (h : command line = some k) :
    has k (uncomment line) ∧ ∀ k' ∈ keywords.takeWhile (· ≠ k), ¬ has k' (uncomment line) := by
  rw [command, List.find?_eq_some_iff_append] at h
  obtain ⟨hk, pre, post, e, hp⟩ := h
  have hk' : has k (uncomment line) := by simpa using hk
  refine ⟨hk', ?_⟩
  have hall : ∀ a ∈ pre, decide (a ≠ k) = true := by
    intro a ha
    have := hp a ha
    simp only [decide_eq_true_eq]
    rintro rfl
    simp [hk'] at this
  rw [e, List.takeWhile_append_of_pos hall, List.takeWhile_cons]
  simp only [ne_eq, not_true_eq_false, decide_false, Bool.false_eq_true, if_false, List.append_nil]
  intro a ha
  simpa using hp a ha

theorem command_none {line : Str} (h : command line = none) : ∀ k ∈ keywords, ¬ has k (uncomment line) := by
  rw [command, List.find?_eq_none] at h
  intro k hk
  simpa using h k hk

section
variable (e : Env L) (line : Str) (rest : List Str) (fac : ℝ) (tot wrk : Option (Mom L)) (b : Bool)

theorem nth_zero : nth (line :: rest) 0 = .ok line := rfl

theorem step_none (h : command line = none ∨ command line = some "nsteps") :
    step e ⟨line :: rest, fac, tot, wrk, b⟩ = .ok (⟨rest, fac, tot, wrk, b⟩, false) := by
  rcases h with h | h
  · have h := command_none h
    simp only [step, nth_zero, Except.ok_bind, List.drop_one, List.tail_cons]
    simp only [h "create" (by decide), h "rotate" (by decide), h "translate" (by decide), h "add" (by decide),
      h "cmin" (by decide), h "inchin" (by decide), h "nsteps" (by decide), h "load" (by decide),
      h "zeroqlm" (by decide), h "gettotal" (by decide), h "puttotal" (by decide), h "end" (by decide), if_false]
  · obtain ⟨h1, h⟩ := command_some h
    simp only [step, nth_zero, Except.ok_bind, List.drop_one, List.tail_cons]
    simp only [h "create" (by decide), h "rotate" (by decide), h "translate" (by decide), h "add" (by decide),
      h "cmin" (by decide), h "inchin" (by decide), h1, if_false, if_true]

theorem step_end (h : command line = some "end") :
    step e ⟨line :: rest, fac, tot, wrk, b⟩ = .ok (⟨rest, fac, tot, wrk, b⟩, true) := by
  obtain ⟨h1, h⟩ := command_some h
  simp only [step, nth_zero, Except.ok_bind, List.drop_one, List.tail_cons]
  simp only [h "create" (by decide), h "rotate" (by decide), h "translate" (by decide), h "add" (by decide),
      h "cmin" (by decide), h "inchin" (by decide), h "nsteps" (by decide), h "load" (by decide),
      h "zeroqlm" (by decide), h "gettotal" (by decide), h "puttotal" (by decide), h1, if_false, if_true]

theorem step_cm (h : command line = some "cmin") :
    step e ⟨line :: rest, fac, tot, wrk, b⟩ = .ok (⟨rest, 1 / 100, tot, wrk, b⟩, false) := by
  obtain ⟨h1, h⟩ := command_some h
  simp only [step, nth_zero, Except.ok_bind, List.drop_one, List.tail_cons]
  simp only [h "create" (by decide), h "rotate" (by decide), h "translate" (by decide), h "add" (by decide),
      h1, if_false, if_true]

theorem step_inch (h : command line = some "inchin") :
    step e ⟨line :: rest, fac, tot, wrk, b⟩ = .ok (⟨rest, 254 / 10000, tot, wrk, b⟩, false) := by
  obtain ⟨h1, h⟩ := command_some h
  simp only [step, nth_zero, Except.ok_bind, List.drop_one, List.tail_cons]
  simp only [h "create" (by decide), h "rotate" (by decide), h "translate" (by decide), h "add" (by decide),
      h "cmin" (by decide), h1, if_false, if_true]

theorem step_add (h : command line = some "add") :
    step e ⟨line :: rest, fac, tot, wrk, true⟩ = .ok (⟨rest, fac, addO tot wrk, wrk, true⟩, false) := by
  obtain ⟨h1, h⟩ := command_some h
  simp only [step, nth_zero, Except.ok_bind, List.drop_one, List.tail_cons]
  simp only [h "create" (by decide), h "rotate" (by decide), h "translate" (by decide), h1, if_false, if_true,
    Bool.true_eq_false]

theorem step_zero (h : command line = some "zeroqlm") :
    step e ⟨line :: rest, fac, tot, wrk, b⟩
      = .ok (⟨rest, fac, tot.map fun _ => Mom.ofFn L fun _ _ => 0, wrk, b⟩, false) := by
  obtain ⟨h1, h⟩ := command_some h
  simp only [step, nth_zero, Except.ok_bind, List.drop_one, List.tail_cons]
  simp only [h "create" (by decide), h "rotate" (by decide), h "translate" (by decide), h "add" (by decide),
      h "cmin" (by decide), h "inchin" (by decide), h "nsteps" (by decide), h "load" (by decide), h1, if_false, if_true]

theorem step_get (h : command line = some "gettotal") :
    step e ⟨line :: rest, fac, tot, wrk, b⟩ = .ok (⟨rest, fac, tot, tot, true⟩, false) := by
  obtain ⟨h1, h⟩ := command_some h
  simp only [step, nth_zero, Except.ok_bind, List.drop_one, List.tail_cons]
  simp only [h "create" (by decide), h "rotate" (by decide), h "translate" (by decide), h "add" (by decide),
      h "cmin" (by decide), h "inchin" (by decide), h "nsteps" (by decide), h "load" (by decide),
      h "zeroqlm" (by decide), h1, if_false, if_true]

theorem step_put (h : command line = some "puttotal") :
    step e ⟨line :: rest, fac, tot, wrk, b⟩ = .ok (⟨rest, fac, wrk, wrk, true⟩, false) := by
  obtain ⟨h1, h⟩ := command_some h
  simp only [step, nth_zero, Except.ok_bind, List.drop_one, List.tail_cons]
  simp only [h "create" (by decide), h "rotate" (by decide), h "translate" (by decide), h "add" (by decide),
      h "cmin" (by decide), h "inchin" (by decide), h "nsteps" (by decide), h "load" (by decide),
      h "zeroqlm" (by decide), h "gettotal" (by decide), h1, if_false, if_true]

theorem step_rotate (txt : Str) (x y z : ℝ) (h : command line = some "rotate") (ha : Args line "rotate" txt)
    (hn : Numbers e.num txt [x, y, z]) :
    step e ⟨line :: rest, fac, tot, wrk, true⟩ = .ok (⟨rest, fac, tot,
      rotateO wrk (x * (Real.pi / 180)) (y * (Real.pi / 180)) (z * (Real.pi / 180)), true⟩, false) := by
  obtain ⟨h1, h⟩ := command_some h
  simp only [step, nth_zero, Except.ok_bind, List.drop_one, List.tail_cons]
  simp only [h "create" (by decide), h1, if_false, if_true, Bool.true_eq_false, between_ok ha (by decide),
    Except.ok_bind, floats_ok hn, List.map_cons]

theorem step_translate (txt : Str) (x y z : ℝ) (h : command line = some "translate") (ha : Args line "translate" txt)
    (hn : Numbers e.num txt [x, y, z]) :
    step e ⟨line :: rest, fac, tot, wrk, true⟩ = .ok (⟨rest, fac, tot,
      wrk.map fun q => translate_qlm q ![x * fac, y * fac, z * fac], true⟩, false) := by
  obtain ⟨h1, h⟩ := command_some h
  simp only [step, nth_zero, Except.ok_bind, List.drop_one, List.tail_cons]
  simp only [h "create" (by decide), h "rotate" (by decide), h1, if_false, if_true, Bool.true_eq_false,
    between_ok ha (by decide), Except.ok_bind, floats_ok hn, List.map_cons, translateO]

theorem step_load (txt fname : Str) (lines : List Str) (q : Mom L)
      (h : command line = some "load") (ha : Args line "load " txt)
      (hf : txt.dropWhile isSpace = fname ++ (txt.dropWhile isSpace).drop fname.length)
      (hf1 : ∀ c ∈ (txt.dropWhile isSpace).drop fname.length, isSpace c)
      (hf2 : ∀ c, fname.getLast? = some c → ¬ isSpace c) (hm : e.momFile fname = some lines)
      (hq : read_gsq e.num e.int lines = .ok ⟨L, q⟩) :
    step e ⟨line :: rest, fac, tot, wrk, b⟩ = .ok (⟨rest, fac, tot, some q, true⟩, false) := by
  obtain ⟨h1, h⟩ := command_some h
  have hname : ((txt.dropWhile isSpace).reverse.dropWhile isSpace).reverse = fname := by
    rw [hf, List.reverse_append, List.dropWhile_append_of_pos (fun a ha => by
      rw [List.mem_reverse] at ha; exact hf1 a ha)]
    rcases List.eq_nil_or_concat fname with rfl | ⟨f, c, rfl⟩
    · rfl
    · have := hf2 c (by simp)
      rw [List.concat_eq_append, List.reverse_append]
      simp [List.dropWhile_cons, this]
  simp only [step, nth_zero, Except.ok_bind, List.drop_one, List.tail_cons]
  simp only [h "create" (by decide), h "rotate" (by decide), h "translate" (by decide), h "add" (by decide),
      h "cmin" (by decide), h "inchin" (by decide), h "nsteps" (by decide), h1, if_false, if_true,
      between_ok ha (by decide), Except.ok_bind, hname, hm, hq, dif_pos]

end

theorem step_create (e : Env L) (fac : ℝ) (hfac : 0 < fac) (tot wrk : Option (Mom L)) (b : Bool)
    (l0 l1 l2 l3 : Str) (rest : List Str) (txt : Str) (name : String) (tl : List Str)
    (vals : List ℝ) (S : Set V3) (hS : IsCompact S) (dens x y z : ℝ)
    (h : command l0 = some "create") (ha : Args l0 "create" txt) (hw : words txt = name.toList :: tl)
    (hv : Numbers e.num l1 vals) (hS' : Makes L fac name vals S) (hd : FirstNumber e.num l2 dens) :
    step e ⟨l0 :: l1 :: l2 :: l3 :: rest, fac, tot, wrk, b⟩ = (do
      let s' ← finish e ⟨l0 :: l1 :: l2 :: l3 :: rest, fac, tot, wrk, b⟩
        (some (Mom.ofFn L (Body.filled (dens * 1000) S hS).inner))
      .ok (s', false)) := by
  obtain ⟨h1, h⟩ := command_some h
  simp only [step, nth_zero, Except.ok_bind]
  simp only [h1, if_true, between_ok ha (by decide), Except.ok_bind, hw,
    make_ok e fac hfac l0 l1 l2 (l3 :: rest) dens hd hS' hS hv]

/-! ## Unknown shapes -/

theorem make_unknown (e : Env L) (fac : ℝ) (rest : List Str) (name : Str) (h : ∀ k ∈ knownShapes, name ≠ k.toList) :
    makeShape e fac rest name = none := by
  have h' : ∀ k : String, k ∈ knownShapes → (name = k.toList) = False := fun k hk => eq_false (h k hk)
  simp only [makeShape, h' "cylinder" (by decide), h' "sphere" (by decide), h' "cone" (by decide), h' "triangle" (by decide),
    h' "trapezoid" (by decide), h' "partcylinder" (by decide), h' "tetrahedron" (by decide), h' "platehole" (by decide),
    h' "cylhole" (by decide), h' "pyramid" (by decide), h' "rectangle" (by decide), if_false]

theorem skip_stop (mid : List Str) (l0 line : Str) (rest : List Str) (hmid : ∀ l ∈ mid, ¬ has "create" l ∧ ¬ has "end" l)
    (hline : has "create" line ∨ has "end" line) (n : ℕ) (hn : mid.length < n) :
    ∃ x, skip n (l0 :: (mid ++ line :: rest)) = .ok (x :: line :: rest) := by
  induction mid generalizing l0 n with
  | nil =>
    obtain ⟨n, rfl⟩ : ∃ k, n = k + 1 := ⟨n - 1, by simp at hn; omega⟩
    refine ⟨l0, ?_⟩
    have h1 : nth (l0 :: ([] ++ line :: rest)) 1 = .ok line := rfl
    rw [skip, h1, Except.ok_bind, if_neg (by tauto)]
    rfl
  | cons a mid ih =>
    obtain ⟨n, rfl⟩ : ∃ k, n = k + 1 := ⟨n - 1, by simp at hn; omega⟩
    have h1 : nth (l0 :: ((a :: mid) ++ line :: rest)) 1 = .ok a := rfl
    rw [skip, h1, Except.ok_bind, if_pos (hmid a List.mem_cons_self)]
    simp only [List.drop_one, List.tail_cons, List.cons_append]
    exact ih a (fun l hl => hmid l (List.mem_cons_of_mem _ hl)) n (by simp at hn; omega)

theorem skip_end (mid : List Str) (l0 : Str) (hmid : ∀ l ∈ mid, ¬ has "create" l ∧ ¬ has "end" l) (n : ℕ)
    (hn : mid.length < n) : skip n (l0 :: mid) = .error .indexError := by
  induction mid generalizing l0 n with
  | nil =>
    obtain ⟨n, rfl⟩ : ∃ k, n = k + 1 := ⟨n - 1, by simp at hn; omega⟩
    rfl
  | cons a mid ih =>
    obtain ⟨n, rfl⟩ : ∃ k, n = k + 1 := ⟨n - 1, by simp at hn; omega⟩
    have h1 : nth (l0 :: a :: mid) 1 = .ok a := rfl
    rw [skip, h1, Except.ok_bind, if_pos (hmid a List.mem_cons_self)]
    exact ih a (fun l hl => hmid l (List.mem_cons_of_mem _ hl)) n (by simp at hn; omega)

theorem step_unknown (e : Env L) (fac : ℝ) (tot wrk : Option (Mom L)) (b : Bool) (l0 : Str) (mid : List Str) (line : Str)
    (rest : List Str) (txt name : Str) (tl : List Str) (h : command l0 = some "create") (ha : Args l0 "create" txt)
    (hw : words txt = name :: tl) (hname : ∀ k ∈ knownShapes, name ≠ k.toList)
    (hmid : ∀ l ∈ mid, ¬ has "create" l ∧ ¬ has "end" l) (hline : has "create" line ∨ has "end" line) :
    step e ⟨l0 :: (mid ++ line :: rest), fac, tot, wrk, b⟩ = .ok (⟨line :: rest, fac, tot, wrk, true⟩, false) := by
  obtain ⟨h1, h⟩ := command_some h
  obtain ⟨x, hx⟩ := skip_stop mid l0 line rest hmid hline (l0 :: (mid ++ line :: rest)).length (by simp)
  simp only [step, nth_zero, Except.ok_bind]
  simp only [h1, if_true, between_ok ha (by decide), Except.ok_bind, hw, make_unknown e fac _ name hname, hx]
  rfl

theorem step_unknown_end (e : Env L) (fac : ℝ) (tot wrk : Option (Mom L)) (b : Bool) (l0 : Str) (mid : List Str)
    (txt name : Str) (tl : List Str) (h : command l0 = some "create") (ha : Args l0 "create" txt)
    (hw : words txt = name :: tl) (hname : ∀ k ∈ knownShapes, name ≠ k.toList)
    (hmid : ∀ l ∈ mid, ¬ has "create" l ∧ ¬ has "end" l) :
    step e ⟨l0 :: mid, fac, tot, wrk, b⟩ = .error .indexError := by
  obtain ⟨h1, h⟩ := command_some h
  simp only [step, nth_zero, Except.ok_bind]
  simp only [h1, if_true, between_ok ha (by decide), Except.ok_bind, hw, make_unknown e fac _ name hname,
    skip_end mid l0 hmid (l0 :: mid).length (by simp)]
  rfl

end Newt.Multi
