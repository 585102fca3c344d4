import Verif.Props.TwoCentre
import Verif.Props.Rotor
import Verif.Props.Qlm

/-!
# C99: the example scripts of `newt/example`, end to end

The forces the LIGO and VIRGO scripts compute converge, as the degree grows, to the Newtonian force of the solid bodies the
scripts describe.
-/

namespace Newt

open Spec MeasureTheory

/-- A rotated solid is the solid over the rotated set. -/
theorem rotate_solid (mass : ℝ) (S : Set V3) (hS : IsCompact S) (alpha beta gamma : ℝ) :
    (Body.solid mass S hS).rotate alpha beta gamma =
      Body.solid mass (euler alpha beta gamma '' S) (hS.image (continuous_euler alpha beta gamma)) := by
  have hmp : MeasurePreserving (euler alpha beta gamma) volume volume := by
    have : euler alpha beta gamma = rz alpha ∘ ry beta ∘ rz gamma := by
      rw [euler_eq]; rfl
    rw [this]
    exact (rz_mp alpha).comp ((ry_mp beta).comp (rz_mp gamma))
  have hemb : MeasurableEmbedding (euler alpha beta gamma) := by
    have : euler alpha beta gamma = rz alpha ∘ ry beta ∘ rz gamma := by
      rw [euler_eq]; rfl
    rw [this]
    exact (rzE alpha).measurableEmbedding.comp ((ryE beta).measurableEmbedding.comp (rzE gamma).measurableEmbedding)
  have hpre : euler alpha beta gamma ⁻¹' (euler alpha beta gamma '' S) = S := hemb.injective.preimage_image S
  have hvol : volume (euler alpha beta gamma '' S) = volume S := by
    rw [← hmp.measure_preimage_emb hemb, hpre]
  simp only [Body.rotate, Body.solid, List.map_cons, List.map_nil, Piece.move, List.cons.injEq, and_true, Piece.mk.injEq]
  refine ⟨by rw [hvol], ?_⟩
  have := hmp.restrict_preimage_emb hemb (euler alpha beta gamma '' S)
  rw [hpre] at this
  exact this.map_eq

theorem translate_inBall {b : Body} {a : ℝ} (h : b.InBall a) (d : V3) : (b.translate d).InBall (a + modulus d) := by
  intro p' hp'
  obtain ⟨p, hp, rfl⟩ := List.mem_map.1 hp'
  change (p.mu.map fun v => v + d) _ = 0
  rw [Measure.map_apply (by fun_prop) (isOpen_lt continuous_const modulus_continuous).measurableSet]
  refine measure_mono_null ?_ (h p hp)
  intro v hv
  simp only [Set.mem_preimage, Set.mem_setOf_eq] at hv ⊢
  have := modulus_add_le v d
  linarith

theorem ring_inBall {b : Body} {a : ℝ} (h : b.InBall a) (N : ℕ) : (b.ring N).InBall a := by
  intro p hp
  obtain ⟨k, -, hk⟩ := List.mem_flatMap.1 hp
  exact rotate_inBall h _ _ _ p hk

theorem disc_compact_abs (r : ℝ) : IsCompact (disc r) := by
  have h1 : disc r = disc |r| := by simp [disc]
  rw [h1]
  exact disc_compact _ (abs_nonneg r)

/-- The cylinder of the scripts, as a solid. -/
noncomputable abbrev cylBody (mass H R : ℝ) : Body := Body.solid mass (prism H (disc R)) (prism_compact H _ (disc_compact_abs R))

/-- The arc of the scripts, as a solid. -/
noncomputable abbrev arcBody (mass H Ri Ro phic phih : ℝ) : Body :=
  Body.solid mass (prism H (sector Ri Ro phic phih)) (prism_compact H _ (sector_compact Ri Ro phic phih))

theorem lying_eq (H R : ℝ) : euler (Real.pi / 2) (Real.pi / 2) (-Real.pi / 2) '' prism H (disc R) = lying H R := by
  have e : ∀ v : V3, euler (Real.pi / 2) (Real.pi / 2) (-Real.pi / 2) v = ![v 0, v 2, -v 1] := by
    intro v
    have h1 : -Real.pi / 2 = -(Real.pi / 2) := by ring
    funext i
    rw [h1]
    fin_cases i <;> simp [euler, turnZ, turnY]
  ext w
  simp only [Set.mem_image, e, lying, Set.mem_setOf_eq, prism, disc]
  constructor
  · rintro ⟨v, ⟨h1, h2, h3⟩, rfl⟩
    simpa using ⟨h1, h2, h3⟩
  · rintro ⟨h1, h2, h3⟩
    refine ⟨![w 0, -w 2, w 1], ?_, ?_⟩
    · simpa using ⟨h1, h2, h3⟩
    · funext i; fin_cases i <;> simp

theorem lying_compact (H R : ℝ) : IsCompact (lying H R) := by
  rw [← lying_eq]
  exact (prism_compact H _ (disc_compact_abs R)).image (continuous_euler _ _ _)

/-- The mirror of the scripts, as a solid. -/
noncomputable abbrev mirrorBody (mass H R : ℝ) : Body := Body.solid mass (lying H R) (lying_compact H R)

theorem solid_congr (mass : ℝ) {S T : Set V3} (hS : IsCompact S) (hT : IsCompact T) (h : S = T) :
    Body.solid mass S hS = Body.solid mass T hT := by subst h; rfl

theorem okOf_cylinder (L : ℕ) (mass H R : ℝ) (hH : 0 < H) (hR : 0 < R) :
    Ex.okOf (Qlm.cylinder L mass H R) = some (Mom.ofFn L (cylBody mass H R).inner) := by
  rw [C36_cylinder L mass H R hH hR, Ex.okOf, Option.some.injEq]
  congr 1
  funext l m
  rw [Body.inner_solid]

theorem okOf_annulus (L : ℕ) (mass H Ri Ro phic phih : ℝ) (hH : 0 < H) (hRi : 0 ≤ Ri) (hR : Ri < Ro) (h0 : 0 < phih)
    (hpi : phih ≤ Real.pi) :
    Ex.okOf (Qlm.annulus L mass H Ri Ro phic phih) = some (Mom.ofFn L (arcBody mass H Ri Ro phic phih).inner) := by
  rw [C36_annulus L mass H Ri Ro phic phih hH hRi hR h0 hpi, Ex.okOf, Option.some.injEq]
  congr 1
  funext l m
  rw [Body.inner_solid]

theorem madd_bodies (L : ℕ) (b c : Body) : Ex.madd (Mom.ofFn L b.inner) (Mom.ofFn L c.inner) = Mom.ofFn L (Body.inner (b ++ c)) := by
  apply Mom.ext_get
  intro l m hl hm
  rw [madd_get _ _ hl hm, Mom.get_ofFn _ hl hm, Mom.get_ofFn _ hl hm, Mom.get_ofFn _ hl hm, Body.inner_append]

theorem madd_assoc {L : ℕ} (p q r : Mom L) : Ex.madd (Ex.madd p q) r = Ex.madd p (Ex.madd q r) := by
  apply Mom.ext_get
  intro l m hl hm
  rw [madd_get _ _ hl hm, madd_get _ _ hl hm, madd_get _ _ hl hm, madd_get _ _ hl hm, add_assoc]

/-- Adding to something already there. -/
theorem addTurned_madd {L : ℕ} (q : Mom L) (as : List ℝ) : ∀ t u : Mom L,
    Ex.addTurned (Ex.madd t u) q as = (Ex.addTurned u q as).map (Ex.madd t) := by
  induction as with
  | nil => intro t u; rfl
  | cons a as ih =>
    intro t u
    rw [Ex.addTurned, Ex.addTurned, rotate_turned, Option.bind_some, Option.bind_some, madd_assoc, ih]

/-- Two rings built the way the scripts do it. -/
theorem two_rings (L N N' : ℕ) (hN : 0 < N) (hN' : 0 < N') (b : Body) (r r' : ℝ) :
    (Ex.addTurned (translate_qlm (Mom.ofFn L b.inner) ![r, 0, 0]) (translate_qlm (Mom.ofFn L b.inner) ![r, 0, 0])
      ((List.range (N - 1)).map fun k : ℕ => 2 * Real.pi * (k + 1) / N)).bind (fun t =>
        Ex.addTurned (Ex.madd t (translate_qlm (Mom.ofFn L b.inner) ![r', 0, 0])) (translate_qlm (Mom.ofFn L b.inner) ![r', 0, 0])
          ((List.range (N' - 1)).map fun k : ℕ => 2 * Real.pi * (k + 1) / N')) =
      some (Mom.ofFn L (b.twoRings N r N' r').inner) := by
  rw [C56_translate, C56_translate, (C96_ring L N hN _).2, Option.bind_some, addTurned_madd, (C96_ring L N' hN' _).2,
    Option.map_some, madd_bodies]
  rfl

/-- C99: the moments of the LIGO rotor are those of three cylinders at distance `r3` and two at distance `r2`. -/
theorem C99_ligo_rotor (L : ℕ) (mc hc rc r3 r2 : ℝ) (hH : 0 < hc) (hR : 0 < rc) :
    Ex.ligoRotor L mc hc rc r3 r2 = some (Mom.ofFn L ((cylBody mc hc rc).twoRings 3 r3 2 r2).inner) := by
  rw [Ex.ligoRotor, okOf_cylinder L mc hc rc hH hR, Option.bind_some, ← two_rings L 3 2 (by norm_num) (by norm_num)]
  have e3 : ((List.range (3 - 1)).map fun k : ℕ => 2 * Real.pi * (k + 1) / (3 : ℕ)) = [2 * Real.pi / 3, 4 * Real.pi / 3] := by
    simp [List.range_succ]; ring
  have e2 : ((List.range (2 - 1)).map fun k : ℕ => 2 * Real.pi * (k + 1) / (2 : ℕ)) = [Real.pi] := by
    simp
  rw [e3, e2]

/-- C99: the moments of the holes are those of six cylinders of negative mass at distance `r3` and four at `r2`. -/
theorem C99_ligo_holes (L : ℕ) (mh hc rc r3 r2 : ℝ) (hH : 0 < hc) (hR : 0 < rc) :
    Ex.ligoHoles L mh hc rc r3 r2 = some (Mom.ofFn L ((cylBody (-mh) hc rc).twoRings 6 r3 4 r2).inner) := by
  rw [Ex.ligoHoles, okOf_cylinder L (-mh) hc rc hH hR, Option.bind_some, ← two_rings L 6 4 (by norm_num) (by norm_num)]
  have e3 : ((List.range (6 - 1)).map fun k : ℕ => 2 * Real.pi * (k + 1) / (6 : ℕ)) =
      [Real.pi / 3, 2 * Real.pi / 3, Real.pi, 4 * Real.pi / 3, 5 * Real.pi / 3] := by
    simp [List.range_succ]
    refine ⟨?_, ?_, ?_, ?_, ?_⟩ <;> ring
  have e2 : ((List.range (4 - 1)).map fun k : ℕ => 2 * Real.pi * (k + 1) / (4 : ℕ)) = [Real.pi / 2, Real.pi, 3 * Real.pi / 2] := by
    simp [List.range_succ]
    refine ⟨?_, ?_, ?_⟩ <;> ring
  rw [e3, e2]

/-- C99: the moments of the VIRGO rotor are those of two opposite arcs. -/
theorem C99_virgo_rotor (L : ℕ) (mc hc irc orc beta : ℝ) (hH : 0 < hc) (hRi : 0 ≤ irc) (hR : irc < orc) (h0 : 0 < beta)
    (hpi : beta ≤ Real.pi) :
    Ex.virgoRotor L mc hc irc orc beta = some (Mom.ofFn L ((arcBody (mc / 2) hc irc orc 0 beta).ring 2).inner) := by
  rw [Ex.virgoRotor, okOf_annulus L _ hc irc orc 0 beta hH hRi hR h0 hpi, Option.bind_some,
    ← (C96_ring L 2 (by norm_num) _).2]
  have e2 : ((List.range (2 - 1)).map fun k : ℕ => 2 * Real.pi * (k + 1) / (2 : ℕ)) = [Real.pi] := by
    simp
  rw [e2]

/-- C99: the mirror's array is `translate_q2Q` of the moments of a cylinder lying along y. -/
theorem C99_mirror (L : ℕ) (mtm htm rtm dx dy : ℝ) (hH : 0 < htm) (hR : 0 < rtm) :
    Ex.mirror L mtm htm rtm dx dy = translate_q2Q (Mom.ofFn L (mirrorBody mtm htm rtm).inner) ![dx, dy, 0] := by
  rw [Ex.mirror, okOf_cylinder L mtm htm rtm hH hR, Option.bind_some, C56_rotate, Option.bind_some, rotate_solid,
    solid_congr mtm _ (lying_compact htm rtm) (lying_eq htm rtm)]

/-- C99: the rotor of the LIGO script has only moments of orders divisible by 2 or by 3. -/
theorem C99_ligo_orders (L : ℕ) (mc hc rc r3 r2 : ℝ) (hH : 0 < hc) (hR : 0 < rc) (q : Mom L)
    (hq : Ex.ligoRotor L mc hc rc r3 r2 = some q) (l : ℕ) (m : ℤ) (hl : l ≤ L) (hm : m.natAbs ≤ l) (h2 : ¬ (2 : ℤ) ∣ m)
    (h3 : ¬ (3 : ℤ) ∣ m) : q.get l m = 0 := by
  rw [C99_ligo_rotor L mc hc rc r3 r2 hH hR, Option.some.injEq] at hq
  rw [← hq, Body.twoRings, ← madd_bodies, madd_get _ _ hl (by omega),
    (C96_ring L 3 (by norm_num) _).1 l m hl hm (by exact_mod_cast h3),
    (C96_ring L 2 (by norm_num) _).1 l m hl hm (by exact_mod_cast h2), add_zero]

theorem prism_disc_mod (H R : ℝ) (v : V3) (hv : v ∈ prism H (disc R)) : modulus v ≤ Real.sqrt (R ^ 2 + (H / 2) ^ 2) := by
  obtain ⟨h1, h2, h3⟩ := hv
  simp only [disc, Set.mem_setOf_eq] at h3
  exact Real.sqrt_le_sqrt (by nlinarith)

theorem lying_mod (H R : ℝ) (v : V3) (hv : v ∈ lying H R) : modulus v ≤ Real.sqrt (R ^ 2 + (H / 2) ^ 2) := by
  obtain ⟨h1, h2, h3⟩ := hv
  exact Real.sqrt_le_sqrt (by nlinarith)

theorem prism_sector_mod (H Ri Ro p t : ℝ) (hRi : 0 ≤ Ri) (v : V3) (hv : v ∈ prism H (sector Ri Ro p t)) :
    modulus v ≤ Real.sqrt (Ro ^ 2 + (H / 2) ^ 2) := by
  obtain ⟨h1, h2, r, phi, h3, h4, -, -, h5, h6⟩ := hv
  simp only at h5 h6
  refine Real.sqrt_le_sqrt ?_
  rw [h5, h6, show (r * Real.cos phi) ^ 2 + (r * Real.sin phi) ^ 2 = r ^ 2 by
    linear_combination r ^ 2 * Real.sin_sq_add_cos_sq phi]
  nlinarith

/-- The sharp radius of a cylinder displaced along x. -/
theorem cyl_out_inBall (mass H R x : ℝ) (hR : 0 ≤ R) (hx : 0 ≤ x) :
    ((cylBody mass H R).translate ![x, 0, 0]).InBall (Real.sqrt ((x + R) ^ 2 + (H / 2) ^ 2)) := by
  intro p' hp'
  obtain ⟨p, hp, rfl⟩ := List.mem_map.1 hp'
  simp only [Body.solid, List.mem_singleton] at hp
  subst hp
  change ((volume.restrict (prism H (disc R))).map fun v => v + ![x, 0, 0]) _ = 0
  have hm : MeasurableSet {v : V3 | Real.sqrt ((x + R) ^ 2 + (H / 2) ^ 2) < modulus v} :=
    (isOpen_lt continuous_const modulus_continuous).measurableSet
  rw [Measure.map_apply (by fun_prop) hm, Measure.restrict_apply (hm.preimage (by fun_prop))]
  convert measure_empty (μ := (volume : Measure V3))
  ext v
  simp only [Set.mem_inter_iff, Set.mem_preimage, Set.mem_setOf_eq, Set.mem_empty_iff_false, iff_false, not_and]
  intro h1 ⟨h2, h3, h4⟩
  refine absurd h1 (not_lt.2 (Real.sqrt_le_sqrt ?_))
  simp only [disc, Set.mem_setOf_eq] at h4
  simp only [Pi.add_apply, Matrix.cons_val, add_zero]
  have h5 : v 0 ≤ R := by nlinarith [abs_le_of_sq_le_sq (show v 0 ^ 2 ≤ R ^ 2 by nlinarith [sq_nonneg (v 1)]) hR, le_abs_self (v 0)]
  nlinarith [mul_nonneg hx (sub_nonneg.2 h5)]

theorem twoRings_inBall (mass H R r3 r2 a : ℝ) (N N' : ℕ) (hR : 0 ≤ R) (h3 : 0 ≤ r3) (h2 : 0 ≤ r2)
    (ha3 : Real.sqrt ((r3 + R) ^ 2 + (H / 2) ^ 2) ≤ a) (ha2 : Real.sqrt ((r2 + R) ^ 2 + (H / 2) ^ 2) ≤ a) :
    ((cylBody mass H R).twoRings N r3 N' r2).InBall a := by
  have mono : ∀ {b : Body} {s : ℝ}, b.InBall s → s ≤ a → b.InBall a := fun hb hs p hp =>
    measure_mono_null (fun v hv => lt_of_le_of_lt hs hv) (hb p hp)
  intro p hp
  rcases List.mem_append.1 hp with hp | hp
  · exact ring_inBall (mono (cyl_out_inBall mass H R r3 hR h3) ha3) N p hp
  · exact ring_inBall (mono (cyl_out_inBall mass H R r2 hR h2) ha2) N' p hp

/-- The forces of the scripts for a rotor whose array is that of the body `b`. -/
theorem script_converges (b : Body) (a : ℝ) (ha : 0 ≤ a) (hb : b.InBall a) (mtm htm rtm dx dy : ℝ) (hH : 0 < htm) (hR : 0 < rtm)
    (h : a + Real.sqrt (rtm ^ 2 + (htm / 2) ^ 2) < Real.sqrt (dx ^ 2 + dy ^ 2)) (nAng k : ℕ) :
    ∃ (tm : ∀ L, Mom L) (F : ℕ → Fin 3 → ℂ),
      (∀ L, Ex.mirror L mtm htm rtm dx dy = some (tm L)) ∧
      (∀ L, 1 ≤ L → Ex.forceAt (Mom.ofFn L b.inner) (tm L) nAng k = some (F L)) ∧
      ∀ i, Filter.Tendsto (fun L => F L i) Filter.atTop
        (nhds ((b.rotate (k * (2 * Real.pi / nAng)) 0 0).force BIG_G ((mirrorBody mtm htm rtm).translate ![dx, dy, 0]) i : ℂ)) := by
  have hmod : modulus ![dx, dy, 0] = Real.sqrt (dx ^ 2 + dy ^ 2) := by simp [modulus]
  obtain ⟨Q, F, h1, h2, h3⟩ := C98_force (b.rotate (k * (2 * Real.pi / nAng)) 0 0) (mirrorBody mtm htm rtm) 0 ![dx, dy, 0] a
    (Real.sqrt (rtm ^ 2 + (htm / 2) ^ 2)) ha (Real.sqrt_nonneg _) (by rwa [hmod])
    (by rw [translate_zero_body]; exact rotate_inBall hb _ _ _) (solid_inBall _ _ _ _ (lying_mod htm rtm))
  refine ⟨Q, F, fun L => by rw [C99_mirror L mtm htm rtm dx dy hH hR, h1], fun L hL => ?_, fun i => ?_⟩
  · have := h2 L hL
    simp only [Ex.forceAt, C56_rotate, Option.bind_some]
    simpa using this
  · have := h3 i
    rwa [translate_zero_body] at this

/-- C99: the forces computed by `test_ligo.py`, for any dimensions and any rotor angle, converge as `LMax` grows to the Newtonian
force on the five turned cylinders due to the mirror, provided the mirror's distance exceeds the sum of the two radii. -/
theorem C99_ligo (mc hc rc r3 r2 mtm htm rtm dx dy a : ℝ) (hH : 0 < hc) (hR : 0 < rc) (h3 : 0 ≤ r3) (h2 : 0 ≤ r2)
    (hHt : 0 < htm) (hRt : 0 < rtm)
    (ha3 : Real.sqrt ((r3 + rc) ^ 2 + (hc / 2) ^ 2) ≤ a) (ha2 : Real.sqrt ((r2 + rc) ^ 2 + (hc / 2) ^ 2) ≤ a)
    (h : a + Real.sqrt (rtm ^ 2 + (htm / 2) ^ 2) < Real.sqrt (dx ^ 2 + dy ^ 2)) (nAng k : ℕ) :
    ∃ (rotor tm : ∀ L, Mom L) (F : ℕ → Fin 3 → ℂ),
      (∀ L, Ex.ligoRotor L mc hc rc r3 r2 = some (rotor L)) ∧
      (∀ L, Ex.mirror L mtm htm rtm dx dy = some (tm L)) ∧
      (∀ L, 1 ≤ L → Ex.forceAt (rotor L) (tm L) nAng k = some (F L)) ∧
      ∀ i, Filter.Tendsto (fun L => F L i) Filter.atTop
        (nhds ((((cylBody mc hc rc).twoRings 3 r3 2 r2).rotate (k * (2 * Real.pi / nAng)) 0 0).force BIG_G
          ((mirrorBody mtm htm rtm).translate ![dx, dy, 0]) i : ℂ)) := by
  have ha : 0 ≤ a := (Real.sqrt_nonneg _).trans ha3
  obtain ⟨tm, F, h4, h5, h6⟩ := script_converges _ a ha (twoRings_inBall mc hc rc r3 r2 a 3 2 hR.le h3 h2 ha3 ha2) mtm htm rtm dx dy
    hHt hRt h nAng k
  exact ⟨_, tm, F, fun L => C99_ligo_rotor L mc hc rc r3 r2 hH hR, h4, h5, h6⟩

/-- C99: the forces of `test_ligo2.py` (the rotor turned step by step) converge to the same force, one step further. -/
theorem C99_ligo2 (mc hc rc r3 r2 mtm htm rtm dx dy a : ℝ) (hH : 0 < hc) (hR : 0 < rc) (h3 : 0 ≤ r3) (h2 : 0 ≤ r2)
    (hHt : 0 < htm) (hRt : 0 < rtm)
    (ha3 : Real.sqrt ((r3 + rc) ^ 2 + (hc / 2) ^ 2) ≤ a) (ha2 : Real.sqrt ((r2 + rc) ^ 2 + (hc / 2) ^ 2) ≤ a)
    (h : a + Real.sqrt (rtm ^ 2 + (htm / 2) ^ 2) < Real.sqrt (dx ^ 2 + dy ^ 2)) (nAng k : ℕ) :
    ∃ (rotor tm : ∀ L, Mom L) (F : ℕ → Fin 3 → ℂ),
      (∀ L, Ex.ligoRotor L mc hc rc r3 r2 = some (rotor L)) ∧
      (∀ L, Ex.mirror L mtm htm rtm dx dy = some (tm L)) ∧
      (∀ L, 1 ≤ L → Ex.forceStepped (rotor L) (tm L) nAng k = some (F L)) ∧
      ∀ i, Filter.Tendsto (fun L => F L i) Filter.atTop
        (nhds ((((cylBody mc hc rc).twoRings 3 r3 2 r2).rotate ((k + 1 : ℕ) * (2 * Real.pi / nAng)) 0 0).force BIG_G
          ((mirrorBody mtm htm rtm).translate ![dx, dy, 0]) i : ℂ)) := by
  obtain ⟨rotor, tm, F, h4, h5, h6, h7⟩ := C99_ligo mc hc rc r3 r2 mtm htm rtm dx dy a hH hR h3 h2 hHt hRt ha3 ha2 h nAng (k + 1)
  exact ⟨rotor, tm, F, h4, h5, fun L hL => by rw [C97_force, h6 L hL], h7⟩

/-- C99: the forces of `test_virgo.py` converge to the Newtonian force on the two turned arcs due to the mirror. -/
theorem C99_virgo (mc hc irc orc beta mtm htm rtm dx dy : ℝ) (hH : 0 < hc) (hRi : 0 ≤ irc) (hR : irc < orc) (h0 : 0 < beta)
    (hpi : beta ≤ Real.pi) (hHt : 0 < htm) (hRt : 0 < rtm)
    (h : Real.sqrt (orc ^ 2 + (hc / 2) ^ 2) + Real.sqrt (rtm ^ 2 + (htm / 2) ^ 2) < Real.sqrt (dx ^ 2 + dy ^ 2)) (nAng k : ℕ) :
    ∃ (rotor tm : ∀ L, Mom L) (F : ℕ → Fin 3 → ℂ),
      (∀ L, Ex.virgoRotor L mc hc irc orc beta = some (rotor L)) ∧
      (∀ L, Ex.mirror L mtm htm rtm dx dy = some (tm L)) ∧
      (∀ L, 1 ≤ L → Ex.forceAt (rotor L) (tm L) nAng k = some (F L)) ∧
      ∀ i, Filter.Tendsto (fun L => F L i) Filter.atTop
        (nhds ((((arcBody (mc / 2) hc irc orc 0 beta).ring 2).rotate (k * (2 * Real.pi / nAng)) 0 0).force BIG_G
          ((mirrorBody mtm htm rtm).translate ![dx, dy, 0]) i : ℂ)) := by
  obtain ⟨tm, F, h4, h5, h6⟩ := script_converges _ _ (Real.sqrt_nonneg _)
    (ring_inBall (solid_inBall (mc / 2) _ (prism_compact hc _ (sector_compact irc orc 0 beta)) _
      (prism_sector_mod hc irc orc 0 beta hRi)) 2) mtm htm rtm dx dy hHt hRt h nAng k
  exact ⟨_, tm, F, fun L => C99_virgo_rotor L mc hc irc orc beta hH hRi hR h0 hpi, h4, h5, h6⟩

/-- The dimensions in `test_ligo.py` and `test_ligo2.py` meet the conditions. -/
example : ∃ a : ℝ, Real.sqrt ((0.10478 + 0.03683 / 2) ^ 2 + (0.0508 / 2) ^ 2) ≤ a ∧
    Real.sqrt ((0.06033 + 0.03683 / 2) ^ 2 + (0.0508 / 2) ^ 2) ≤ a ∧
    a + Real.sqrt ((0.34021 / 2) ^ 2 + (0.1998 / 2) ^ 2) < Real.sqrt ((-0.72419) ^ 2 + (-0.92365) ^ 2) := by
  refine ⟨0.2, Real.sqrt_le_iff.2 ⟨by norm_num, by norm_num⟩, Real.sqrt_le_iff.2 ⟨by norm_num, by norm_num⟩, ?_⟩
  have h1 : Real.sqrt ((0.34021 / 2) ^ 2 + (0.1998 / 2) ^ 2) ≤ 0.3 := Real.sqrt_le_iff.2 ⟨by norm_num, by norm_num⟩
  have h2 : 1 < Real.sqrt ((-0.72419) ^ 2 + (-0.92365) ^ 2) := Real.lt_sqrt_of_sq_lt (by norm_num)
  linarith

/-- So do the dimensions in `test_virgo.py`. -/
example : Real.sqrt (0.19 ^ 2 + (0.052 / 2) ^ 2) + Real.sqrt ((0.35 / 2) ^ 2 + (0.2 / 2) ^ 2) <
    Real.sqrt ((1.32 * Real.cos 0.241) ^ 2 + (1.32 * Real.sin 0.241) ^ 2) := by
  have h1 : Real.sqrt (0.19 ^ 2 + (0.052 / 2) ^ 2) ≤ 0.3 := Real.sqrt_le_iff.2 ⟨by norm_num, by norm_num⟩
  have h2 : Real.sqrt ((0.35 / 2) ^ 2 + (0.2 / 2) ^ 2) ≤ 0.3 := Real.sqrt_le_iff.2 ⟨by norm_num, by norm_num⟩
  have h3 : 1 < Real.sqrt ((1.32 * Real.cos 0.241) ^ 2 + (1.32 * Real.sin 0.241) ^ 2) := by
    refine Real.lt_sqrt_of_sq_lt ?_
    have := Real.sin_sq_add_cos_sq 0.241
    nlinarith
  linarith

end Newt
