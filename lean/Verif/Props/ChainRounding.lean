import Verif.Spec.ChainRounding
import Verif.Props.TransRounding
import Verif.Props.Tolerance

/-!
# C131: rounding and truncation of a calculation that moves a body by way of its moments
-/

namespace Newt

open Spec Flt

variable {a : Arith} {u : ℝ} {e : ℕ → ℝ}

theorem flt_translate_out {L : ℕ} {A : PtArray} {q q' : Mom L} (hq : Flt.qmoments a L A q) {d : V3} (h : Flt.translate_qlm a q d q') {l : ℕ} {m : ℤ} (hl : l ≤ L) (hm : m.natAbs ≤ L)
    (hlm : l < m.natAbs) : q'.get l m = 0 := by
  rcases h with ⟨-, rfl⟩ | ⟨r, phi, theta, Y, f, -, -, -, -, rfl⟩
  · exact flt_inner_out hq hl hm hlm
  · refine fillNeg_out _ hl hm ?_ ?_
    · rw [if_neg (by omega)]
    · rw [if_neg (by omega)]

theorem absMass_moved (A : PtArray) (v : V3) : absMass (translate_point_array A v) = absMass A := by
  rw [absMass, absMass, translate_point_array, List.map_map]; rfl

theorem translate_dist {A : PtArray} {r : ℝ} (hA : ∀ p ∈ A, originDist p ≤ r) (v : V3) : ∀ p ∈ translate_point_array A v, originDist p ≤ r + modulus v := by
  intro p hp
  rw [translate_point_array, List.mem_map] at hp
  obtain ⟨s, hs, rfl⟩ := hp
  exact (modulus_add_le _ _).trans (add_le_add (hA s hs) le_rfl)

/-- The torque from approximate moments of two arrays of masses. -/
theorem torque_of_within (h0 : 0 ≤ u) (h1 : u < 1) (ha : Accurate a u e) (A B : PtArray) {r R K : ℝ} (hr : 0 ≤ r) (hrR : r < R)
    (hA : ∀ p ∈ A, originDist p ≤ r) (hB : ∀ p ∈ B, R ≤ originDist p) (hK : 0 ≤ K) {L : ℕ} {q Q : Mom L} {cq cQ : ℝ} (hcq : 1 ≤ cq) (hcQ : 1 ≤ cQ)
    (hq : ∀ (l : ℕ) (m : ℤ), l ≤ L → m.natAbs ≤ L → Within cq (if m.natAbs ≤ l then K * r ^ l * harmMax l else 0) (innerMoment A l m) (q.get l m))
    (hQ : ∀ (l : ℕ) (m : ℤ), l ≤ L → m.natAbs ≤ L → Within cQ (if m.natAbs ≤ l then absMass B * (1 / R ^ (l + 1)) * harmMax l else 0) (outerMoment B l m) (Q.get l m))
    {g : ℝ} (hg : a.op BIG_G g) {t : TorqueOut L} (ht : Flt.torque_lm a q Q g t) (angle : ℝ) {tau : ℝ} (htau : Flt.torques_at_angle a t.nc t.ns angle false tau) :
    ∃ A' f T, Newt.rotate_point_array A angle ![0, 0, 1] = some A' ∧ Newt.point_matrix_gravity A' B = some (f, T) ∧
      |tau - T 2| ≤ BIG_G * absMass A * absMass B * (r * missed r R L) +
        BIG_G * K * absMass B * (8 * r * R / (R - r) ^ 3) * (grow u (3 * L + 16) * (cq * cQ) * (1 + u * (1 + L * |angle|)) - 1) := by
  have hR : 0 < R := by linarith
  have hpi := Real.pi_pos
  have hG : 0 ≤ BIG_G := by rw [BIG_G]; norm_num
  have hMB := absMass_nonneg B
  obtain ⟨A', f, T, hrot, hpm, tau0, ht0, hmiss⟩ : ∃ A' f T, Newt.rotate_point_array A angle ![0, 0, 1] = some A' ∧ Newt.point_matrix_gravity A' B = some (f, T) ∧
      ∃ tau0, Newt.torques_at_angle (Newt.torque_lm (Mom.ofFn L (innerMoment A)) (Mom.ofFn L (outerMoment B)) BIG_G).nc
        (Newt.torque_lm (Mom.ofFn L (innerMoment A)) (Mom.ofFn L (outerMoment B)) BIG_G).ns angle false = some tau0 ∧
        |tau0 - T 2| ≤ BIG_G * absMass A * absMass B * (r * missed r R L) := by
    have e1 : Mom.ofFn L (innerMoment A) = Mom.ofFn L (Body.points A).inner := by
      apply Mom.ext_get
      intro l m hl hm
      rw [Mom.get_ofFn _ hl hm, Mom.get_ofFn _ hl hm, Body.inner_points]
    have e2 : Mom.ofFn L (outerMoment B) = Mom.ofFn L (Body.points B).outer := by
      apply Mom.ext_get
      intro l m hl hm
      rw [Mom.get_ofFn _ hl hm, Mom.get_ofFn _ hl hm, Body.outer_points]
    have hbA : (Body.points A).InBall r := (Body.points_inBall A r).2 hA
    obtain ⟨t0, k1, k2⟩ := C115_torque_error (Body.points A) (Body.points B) angle r R hr hrR hbA ((Body.points_offBall B R).2 hB) L
    obtain ⟨A', h7, h8⟩ := points_rotate_z A angle
    have hA' : ∀ p ∈ A', modulus p.pos ≤ r := by
      rw [← Body.points_inBall, ← h8]
      exact rotate_inBall hbA _ _ _
    have hap : Apart A' B := by
      intro p hp s hs h
      have h3 := hA' p hp
      have h4 : R ≤ modulus s.pos := hB s hs
      rw [h] at h3; linarith
    obtain ⟨f, T, h3, -, h4⟩ := C80_points _ _ hap
    refine ⟨A', f, T, h7, h3, t0, by rw [e1, e2]; exact k1, ?_⟩
    rwa [absMass_points, absMass_points, h8, h4 2] at k2
  refine ⟨A', f, T, hrot, hpm, ?_⟩
  obtain ⟨tau1, ht1, hround⟩ := torque_within h0 h1 ha (q0 := Mom.ofFn L (innerMoment A)) (Q0 := Mom.ofFn L (outerMoment B)) hg ht htau hcq hcQ
    (fun l m => if m.natAbs ≤ l then K * r ^ l * harmMax l else 0) (fun l m => if m.natAbs ≤ l then absMass B * (1 / R ^ (l + 1)) * harmMax l else 0)
    (fun l m hl hm => by rw [Mom.get_ofFn _ hl hm]; exact hq l m hl hm)
    (fun l m hl hm => by rw [Mom.get_ofFn _ hl hm]; exact hQ l m hl hm)
  rw [ht0] at ht1
  obtain rfl := Option.some.inj ht1
  set bud := grow u (3 * L + 16) * (cq * cQ) * (1 + u * (1 + L * |angle|)) - 1 with hbud
  have hbud0 : 0 ≤ bud := by
    have h2 : (1 : ℝ) ≤ 1 + u * (1 + L * |angle|) := by
      have : 0 ≤ u * (1 + L * |angle|) := by positivity
      linarith
    have := one_le_mul_of_one_le_of_one_le (one_le_mul_of_one_le_of_one_le (grow_one_le h0 h1 (3 * L + 16)) (one_le_mul_of_one_le_of_one_le hcq hcQ)) h2
    linarith
  have e2 : 4 * Real.pi * |BIG_G| * ∑ l ∈ Finset.range (L + 1), ∑ m ∈ Finset.Icc (-(L : ℤ)) L, |(m : ℝ)| / (2 * l + 1) *
      (if m.natAbs ≤ l then K * r ^ l * harmMax l else 0) * (if m.natAbs ≤ l then absMass B * (1 / R ^ (l + 1)) * harmMax l else 0) =
      BIG_G * K * absMass B * ∑ l ∈ Finset.range (L + 1), (l : ℝ) * (l + 1) * (r ^ l * (1 / R ^ (l + 1))) := by
    rw [abs_of_nonneg hG, Finset.mul_sum, Finset.mul_sum]
    refine Finset.sum_congr rfl fun l hl => ?_
    rw [Finset.mem_range] at hl
    have h2 : ∀ m : ℤ, |(m : ℝ)| / (2 * l + 1) * (if m.natAbs ≤ l then K * r ^ l * harmMax l else 0) * (if m.natAbs ≤ l then absMass B * (1 / R ^ (l + 1)) * harmMax l else 0) =
        |(m : ℝ)| * (if m.natAbs ≤ l then K * absMass B * (r ^ l * (1 / R ^ (l + 1))) / (4 * Real.pi) else 0) := by
      intro m
      split_ifs
      · have h3 := harmMax_sq l
        have h4 : (2 * (l : ℝ) + 1) ≠ 0 := by positivity
        calc _ = |(m : ℝ)| * (K * absMass B * (r ^ l * (1 / R ^ (l + 1)))) * (harmMax l ^ 2 / (2 * l + 1)) := by ring
          _ = _ := by rw [h3]; field_simp
      · simp
    simp only [h2]
    rw [sum_abs_m L l (by omega)]
    field_simp
  rw [e2] at hround
  have h5 := quad_series_le hr hrR L
  calc |tau - T 2| = |(tau - tau0) + (tau0 - T 2)| := by congr 1; ring
    _ ≤ |tau - tau0| + |tau0 - T 2| := abs_add_le _ _
    _ ≤ bud * (4 * (BIG_G * K * absMass B * (2 * r * R / (R - r) ^ 3))) + BIG_G * absMass A * absMass B * (r * missed r R L) := by
        refine add_le_add (hround.trans ?_) hmiss
        gcongr
    _ = _ := by ring

theorem budget_split (h1 : u < 1) (d eps angle : ℝ) (L N M : ℕ) :
    grow u (3 * L + 16) * ((1 + relErr u (3 * L + 3 + N)) * (1 + (eps + L * (Real.pi * (d + 8 * u)))) * (grow u (3 * L + 7 + M) * (1 + (eps + L * (Real.pi * (d + 8 * u)))))) *
      (1 + u * (1 + L * |angle|)) = 1 + budget u d eps L (N + M) angle := by
  rw [budget, show (1 + relErr u (3 * L + 3 + N)) = grow u (3 * L + 3 + N) from rfl,
    show (1 + relErr u (9 * L + 26 + (N + M))) = grow u (9 * L + 26 + (N + M)) from rfl]
  have : grow u (9 * L + 26 + (N + M)) = grow u (3 * L + 16) * grow u (3 * L + 3 + N) * grow u (3 * L + 7 + M) := by
    rw [grow_add h1, grow_add h1]; congr 1; omega
  rw [this]; ring

/-- The moments of a body moved by `translate_qlm`, with the entries outside of the triangle. -/
theorem moved_within (h0 : 0 ≤ u) (h1 : u ≤ 1 / 4) (ha : Accurate a u e) (A : PtArray) (v : V3) {r d dd eps : ℝ} (hr : 0 ≤ r) (hA : ∀ p ∈ A, originDist p ≤ r)
    (hdA : PolarAccuracy u d A) (hdd : PolarAccuracy u dd [⟨1, v⟩]) {L : ℕ} (heps : ∀ l, l ≤ L → e l ≤ eps * harmMax l) {q q' : Mom L} (hq : Flt.qmoments a L A q)
    (h : Flt.translate_qlm a q v q') :
    1 ≤ transGrow u dd eps L L * ((1 + relErr u (3 * L + 3 + A.length)) * (1 + (eps + L * (Real.pi * (d + 8 * u))))) ∧
    ∀ (l : ℕ) (m : ℤ), l ≤ L → m.natAbs ≤ L → Within (transGrow u dd eps L L * ((1 + relErr u (3 * L + 3 + A.length)) * (1 + (eps + L * (Real.pi * (d + 8 * u))))))
      (if m.natAbs ≤ l then (2 * L + 1) * absMass A * (r + modulus v) ^ l * harmMax l else 0) (innerMoment (translate_point_array A v) l m) (q'.get l m) := by
  have h1' : u < 1 := by linarith
  have hpi := Real.pi_pos
  have hd0 := hdA.1
  have he := eps_nonneg ha heps
  have hc : 1 ≤ transGrow u dd eps L L * ((1 + relErr u (3 * L + 3 + A.length)) * (1 + (eps + L * (Real.pi * (d + 8 * u))))) := by
    refine one_le_mul_of_one_le_of_one_le (transGrow_one_le h0 h1' hdd.1 he L L) (one_le_mul_of_one_le_of_one_le (grow_one_le h0 h1' _) ?_)
    have : 0 ≤ (L : ℝ) * (Real.pi * (d + 8 * u)) := by positivity
    linarith
  refine ⟨hc, fun l m hl hm => ?_⟩
  by_cases hlm : m.natAbs ≤ l
  · rw [if_pos hlm]
    refine (inner_points_within h0 h1 ha A v hr hA hdA hdd heps hq h hl hlm).mono hc le_rfl ?_
    have hL : (l : ℝ) ≤ L := by exact_mod_cast hl
    have hM := absMass_nonneg A
    have hv := modulus_nonneg v
    have hH := harmMax_nonneg l
    calc (2 * (l : ℝ) + 1) * (absMass A * (r + modulus v) ^ l * harmMax l) ≤ (2 * (L : ℝ) + 1) * (absMass A * (r + modulus v) ^ l * harmMax l) := by gcongr
      _ = _ := by ring
  · rw [if_neg hlm, flt_translate_out hq h hl hm (by omega)]
    have h2 : innerMoment (translate_point_array A v) l m = 0 := by
      have := (innerMoment_valid L (translate_point_array A v)).2 l m hl hm (by omega)
      rwa [Mom.get_ofFn _ hl hm] at this
    rw [h2]
    exact Within.refl (by simp) hc

/-- **C131 (torque on a moved body).**  Point masses `A` within radius `r` of the origin; their moments, moved by `translate_qlm` through `v`, and the outer moments of masses
`B` beyond `R > r + |v|`, put into `torque_lm` and `torques_at_angle`, all in floating point arithmetic, give the torque about `z` on the masses moved by `v` and then turned
by the angle, up to the truncation error and the rounding error. -/
theorem C131_torque (h0 : 0 ≤ u) (h1 : u ≤ 1 / 4) (ha : Accurate a u e) (A B : PtArray) (v : V3) (r R d dd eps : ℝ) (hr : 0 ≤ r) (hrR : r + modulus v < R)
    (hA : ∀ p ∈ A, originDist p ≤ r) (hB : ∀ p ∈ B, R ≤ originDist p) (hdA : PolarAccuracy u d A) (hdB : PolarAccuracy u d B) (hdd : PolarAccuracy u dd [⟨1, v⟩]) {L : ℕ}
    (heps : ∀ l, l ≤ L → e l ≤ eps * harmMax l) {q q' Q : Mom L} (hq : Flt.qmoments a L A q) (hq' : Flt.translate_qlm a q v q') (hQ : Flt.Qmomentsb a L B Q)
    {g : ℝ} (hg : a.op BIG_G g) {t : TorqueOut L} (ht : Flt.torque_lm a q' Q g t) (angle : ℝ) {tau : ℝ} (htau : Flt.torques_at_angle a t.nc t.ns angle false tau) :
    ∃ A' f T, Newt.rotate_point_array (translate_point_array A v) angle ![0, 0, 1] = some A' ∧ Newt.point_matrix_gravity A' B = some (f, T) ∧
      |tau - T 2| ≤ BIG_G * absMass A * absMass B * ((r + modulus v) * missed (r + modulus v) R L +
        (2 * L + 1) * (8 * (r + modulus v) * R / (R - (r + modulus v)) ^ 3) * movedBudget u d dd eps L (A.length + B.length) angle) := by
  have h1' : u < 1 := by linarith
  have hv := modulus_nonneg v
  have hR : 0 < R := by linarith
  have hpi := Real.pi_pos
  have hd0 := hdA.1
  have he := eps_nonneg ha heps
  have hM := absMass_nonneg A
  obtain ⟨hc, hw⟩ := moved_within h0 h1 ha A v hr hA hdA hdd heps hq hq'
  have hcQ : 1 ≤ grow u (3 * L + 7 + B.length) * (1 + (eps + L * (Real.pi * (d + 8 * u)))) := by
    refine one_le_mul_of_one_le_of_one_le (grow_one_le h0 h1' _) ?_
    have : 0 ≤ (L : ℝ) * (Real.pi * (d + 8 * u)) := by positivity
    linarith
  obtain ⟨A', f, T, k1, k2, k3⟩ := torque_of_within h0 h1' ha (translate_point_array A v) B (K := (2 * L + 1) * absMass A) (by linarith : 0 ≤ r + modulus v) hrR
    (translate_dist hA v) hB (by positivity) hc hcQ hw (fun l m hl hm => outer_within h0 h1 ha hdB heps hR hB hQ hl hm) hg ht angle htau
  refine ⟨A', f, T, k1, k2, k3.trans_eq ?_⟩
  have e1 : grow u (3 * L + 16) * (transGrow u dd eps L L * ((1 + relErr u (3 * L + 3 + A.length)) * (1 + (eps + L * (Real.pi * (d + 8 * u))))) *
      (grow u (3 * L + 7 + B.length) * (1 + (eps + L * (Real.pi * (d + 8 * u)))))) * (1 + u * (1 + L * |angle|)) - 1 = movedBudget u d dd eps L (A.length + B.length) angle := by
    rw [movedBudget, ← budget_split h1']; ring
  rw [e1, absMass_moved]; ring

theorem force_budget_split (h1 : u < 1) (d eps : ℝ) (L N M : ℕ) :
    gamGrow u L * grow u (20 + 7 * L + forceTerms L) * ((1 + relErr u (3 * L + 3 + N)) * (1 + (eps + L * (Real.pi * (d + 8 * u)))) *
      (grow u (3 * L + 7 + M) * (1 + (eps + L * (Real.pi * (d + 8 * u)))))) = 1 + forceBudget u d eps L (N + M) := by
  rw [forceBudget, show (1 + relErr u (3 * L + 3 + N)) = grow u (3 * L + 3 + N) from rfl,
    show (1 + relErr u (13 * L + 30 + forceTerms L + (N + M))) = grow u (13 * L + 30 + forceTerms L + (N + M)) from rfl]
  have : grow u (13 * L + 30 + forceTerms L + (N + M)) = grow u (20 + 7 * L + forceTerms L) * grow u (3 * L + 3 + N) * grow u (3 * L + 7 + M) := by
    rw [grow_add h1, grow_add h1]; congr 1; omega
  rw [this, gamGrow]; ring

/-- **C131 (force on a moved body).**  The moments of masses within radius `r`, moved by `translate_qlm`, and `multipole_force` without displacement, all in floating point
arithmetic, give the force on the moved masses up to the truncation error and the rounding error. -/
theorem C131_force (h0 : 0 ≤ u) (h1 : u ≤ 1 / 4) (ha : Accurate a u e) (A B : PtArray) (v : V3) (r R d dd eps : ℝ) (hr : 0 ≤ r) (hrR : r + modulus v < R)
    (hA : ∀ p ∈ A, originDist p ≤ r) (hB : ∀ p ∈ B, R ≤ originDist p) (hdA : PolarAccuracy u d A) (hdB : PolarAccuracy u d B) (hdd : PolarAccuracy u dd [⟨1, v⟩]) {L : ℕ}
    (hL : 1 ≤ L) (heps : ∀ l, l ≤ L → e l ≤ eps * harmMax l) {q q' Q : Mom L} (hq : Flt.qmoments a L A q) (hq' : Flt.translate_qlm a q v q') (hQ : Flt.Qmomentsb a L B Q)
    {g : ℝ} (hg : a.op BIG_G g) {F : Fin 3 → ℂ} (hF : Flt.multipole_force a q' Q 0 0 0 g F) :
    ∃ f T, Newt.point_matrix_gravity (translate_point_array A v) B = some (f, T) ∧ ∀ i, ‖F i - (f i : ℂ)‖ ≤
      BIG_G * absMass A * absMass B * (missed (r + modulus v) R L +
        (2 * L + 1) * (15 / 2 * (R + 3 * (r + modulus v)) / (R - (r + modulus v)) ^ 3) * movedForceBudget u d dd eps L (A.length + B.length)) := by
  have h1' : u < 1 := by linarith
  have hv := modulus_nonneg v
  have hR : 0 < R := by linarith
  have hpi := Real.pi_pos
  have hG : 0 ≤ BIG_G := by rw [BIG_G]; norm_num
  have hd0 := hdA.1
  have he := eps_nonneg ha heps
  have hMA := absMass_nonneg A
  obtain ⟨hc, hw⟩ := moved_within h0 h1 ha A v hr hA hdA hdd heps hq hq'
  have hcQ : 1 ≤ grow u (3 * L + 7 + B.length) * (1 + (eps + L * (Real.pi * (d + 8 * u)))) := by
    refine one_le_mul_of_one_le_of_one_le (grow_one_le h0 h1' _) ?_
    have : 0 ≤ (L : ℝ) * (Real.pi * (d + 8 * u)) := by positivity
    linarith
  set A1 := translate_point_array A v with hA1
  have hd1 := translate_dist hA v
  rw [← hA1] at hd1
  have e1 : Mom.ofFn L (innerMoment A1) = Mom.ofFn L (Body.points A1).inner := by
    apply Mom.ext_get
    intro l m hl hm
    rw [Mom.get_ofFn _ hl hm, Mom.get_ofFn _ hl hm, Body.inner_points]
  have e2 : Mom.ofFn L (outerMoment B) = Mom.ofFn L (Body.points B).outer := by
    apply Mom.ext_get
    intro l m hl hm
    rw [Mom.get_ofFn _ hl hm, Mom.get_ofFn _ hl hm, Body.outer_points]
  have hz : (Body.points A1).translate 0 = Body.points A1 := by
    rw [points_translate_body, translate_zero]
  have hb : ((Body.points A1).translate 0).InBall (r + modulus v) := by rw [hz]; exact (Body.points_inBall A1 _).2 hd1
  obtain ⟨F1, k1, k2⟩ := C115_force_error (Body.points A1) (Body.points B) 0 (r + modulus v) R (by linarith) hrR hb ((Body.points_offBall B R).2 hB) L hL
  have hap : Apart A1 B := by
    intro p hp s hs h
    have h3 : modulus p.pos ≤ r + modulus v := hd1 p hp
    have h4 : R ≤ modulus s.pos := hB s hs
    rw [h] at h3; linarith
  obtain ⟨f, T, k3, k4, -⟩ := C80_points _ _ hap
  refine ⟨f, T, k3, fun i => ?_⟩
  obtain ⟨F0, hF0, hw'⟩ := force_within h0 h1' ha (q0 := Mom.ofFn L (innerMoment A1)) (Q0 := Mom.ofFn L (outerMoment B)) hc hcQ
    (wq := fun l _ => (2 * L + 1) * absMass A * (r + modulus v) ^ l * harmMax l) (wQ := fun l _ => absMass B * (1 / R ^ (l + 1)) * harmMax l)
    (fun l m hl hm => by
      rw [Mom.get_ofFn _ hl (by omega)]
      have := hw l m hl (by omega)
      rwa [if_pos hm] at this)
    (fun l m hl hm => by
      rw [Mom.get_ofFn _ hl (by omega)]
      have := outer_within h0 h1 ha hdB heps hR hB hQ hl (m := m) (by omega)
      rwa [if_pos hm] at this) hg hF
  rw [← e1, ← e2] at k1
  have hF1 : F1 = F0 := by
    have : some F1 = some F0 := k1.symm.trans hF0
    exact Option.some.inj this
  subst hF1
  have h5 := (hw' i).2
  have e3 : gamGrow u L * grow u (20 + 7 * L + forceTerms L) * (transGrow u dd eps L L * ((1 + relErr u (3 * L + 3 + A.length)) * (1 + (eps + L * (Real.pi * (d + 8 * u))))) *
      (grow u (3 * L + 7 + B.length) * (1 + (eps + L * (Real.pi * (d + 8 * u)))))) - 1 = movedForceBudget u d dd eps L (A.length + B.length) := by
    rw [movedForceBudget, ← force_budget_split h1']; ring
  rw [e3, show Real.sqrt ((0 : ℝ) ^ 2 + 0 ^ 2 + 0 ^ 2) = 0 by simp] at h5
  have hb0 : 0 ≤ movedForceBudget u d dd eps L (A.length + B.length) := by
    have k5 := forceBudget_nonneg h0 h1' hd0 he L (A.length + B.length)
    have := one_le_mul_of_one_le_of_one_le (by linarith : 1 ≤ 1 + forceBudget u d eps L (A.length + B.length)) (transGrow_one_le h0 h1' hdd.1 he L L)
    rw [movedForceBudget]; linarith
  have hgr := gross_origin hG (by linarith : 0 ≤ r + modulus v) hrR (by positivity : 0 ≤ (2 * (L : ℝ) + 1) * absMass A) (absMass_nonneg B) L
  have k6 := k2 i
  rw [absMass_points, absMass_points, hz, k4 i, hA1, absMass_moved] at k6
  calc ‖F i - (f i : ℂ)‖ = ‖(F i - F1 i) + (F1 i - (f i : ℂ))‖ := by congr 1; ring
    _ ≤ ‖F i - F1 i‖ + ‖F1 i - (f i : ℂ)‖ := norm_add_le _ _
    _ ≤ movedForceBudget u d dd eps L (A.length + B.length) * _ + _ := add_le_add (h5.trans (mul_le_mul_of_nonneg_left hgr hb0)) k6
    _ = _ := by ring

/-- `translate_point_array` of the first body and `point_matrix_gravity`, both in floating point arithmetic. -/
theorem C131_moved_points (h0 : 0 ≤ u) (h1 : u < 1) (A A' B : PtArray) (v : V3) (r R : ℝ) (hr : 0 ≤ r) (hA : ∀ p ∈ A, originDist p ≤ r) (hB : ∀ p ∈ B, R ≤ originDist p)
    (hrR : (1 + u) * (r + modulus v) < R) (ht : Flt.translate_point_array u A v A') {f T : V3} (hpm : Flt.point_matrix_gravity u A' B f T) :
    ∃ f0 T0, Newt.point_matrix_gravity (translate_point_array A v) B = some (f0, T0) ∧
      ∀ i, |f i - f0 i| ≤ movedForceErr u A A' B (r + modulus v) R i ∧ |T i - T0 i| ≤ movedTorqueErr u A A' B (r + modulus v) R i := by
  have hv := modulus_nonneg v
  obtain ⟨P, e1, e2, hq⟩ := C114_translate h0 A A' v ht
  have eB : nominal (B.map fun b => (b, (0 : V3))) = B := by
    simp [nominal, Function.comp_def]
  have eB' : displaced (B.map fun b => (b, (0 : V3))) = B := by
    simp [displaced, Function.comp_def]
  have hmem : ∀ p ∈ P, modulus p.1.pos ≤ r + modulus v := fun p hm => by
    refine translate_dist hA v p.1 ?_
    rw [← e1]; exact List.mem_map_of_mem hm
  have hs : 0 ≤ u * (r + modulus v) := by positivity
  obtain ⟨f0, T0, f', T', g1, g2, g3, g4⟩ := C114_tolerance P (B.map fun b => (b, 0)) (u * (r + modulus v)) 0 (r + modulus v) (R - (r + modulus v))
    (fun p hp => ⟨(hq p hp).trans (mul_le_mul_of_nonneg_left (hmem p hp) h0), hmem p hp⟩)
    (fun q hm => by
      obtain ⟨b, hb, rfl⟩ := List.mem_map.1 hm
      rw [(modulus_eq_zero 0).2 rfl])
    (by linarith) (by linarith) (fun p hp q hm => by
      obtain ⟨b, hb, rfl⟩ := List.mem_map.1 hm
      have k1 := hmem p hp
      have k2 : R ≤ modulus b.pos := hB b hb
      have k3 := modulus_add_le (b.pos - p.1.pos) p.1.pos
      rw [sub_add_cancel] at k3
      show R - (r + modulus v) ≤ modulus (b.pos - p.1.pos)
      linarith)
  rw [eB, e1] at g1
  rw [eB', e2] at g2
  obtain ⟨f2, T2, g5, g6⟩ := C112_gravity h0 h1 A' B f T hpm
  rw [g2, Option.some.injEq, Prod.mk.injEq] at g5
  obtain ⟨rfl, rfl⟩ := g5
  have hlen : A'.length = A.length := by
    have := congrArg List.length e1
    rw [← e2]
    simpa [nominal, displaced, translate_point_array] using this
  rw [eB, e1, absMass_moved, add_zero] at g3 g4
  refine ⟨f0, T0, g1, fun i => ?_⟩
  have c1 := abs_le_modulus (f' - f0) i
  have c2 := abs_le_modulus (T' - T0) i
  rw [Pi.sub_apply] at c1 c2
  obtain ⟨g7, g8⟩ := g6 i
  rw [hlen] at g7 g8
  constructor
  · rw [movedForceErr]
    calc |f i - f0 i| = |(f i - f' i) + (f' i - f0 i)| := by congr 1; ring
      _ ≤ |f i - f' i| + |f' i - f0 i| := abs_add_le _ _
      _ ≤ _ := add_le_add g7 (c1.trans g3)
  · rw [movedTorqueErr]
    calc |T i - T0 i| = |(T i - T' i) + (T' i - T0 i)| := by congr 1; ring
      _ ≤ |T i - T' i| + |T' i - T0 i| := abs_add_le _ _
      _ ≤ _ := add_le_add g8 (c2.trans g4)

theorem rotate_none (A A' : PtArray) (h : Newt.rotate_point_array A 0 ![0, 0, 1] = some A') : A' = A := by
  have hv : (![0, 0, 1] : V3) ≠ 0 := fun hc => by
    have := congrFun hc 2
    simp at this
  rw [rotate_some hv] at h
  rw [← Option.some.inj h]
  conv_rhs => rw [← List.map_id A]
  refine List.map_congr_left fun p _ => ?_
  have : rz 0 p.pos = p.pos := by
    funext i
    fin_cases i <;> simp [rz]
  rw [rotF_z, this]
  rfl

/-- **C131 (the torque two ways).**  Moving the moments with `translate_qlm` or the points with `translate_point_array` gives, in floating point arithmetic, the same torque up to
the truncation error and the two rounding errors. -/
theorem C131_torque_two_ways (h0 : 0 ≤ u) (h1 : u ≤ 1 / 4) (ha : Accurate a u e) (A A' B : PtArray) (v : V3) (r R d dd eps : ℝ) (hr : 0 ≤ r) (hrR : (1 + u) * (r + modulus v) < R)
    (hA : ∀ p ∈ A, originDist p ≤ r) (hB : ∀ p ∈ B, R ≤ originDist p) (hdA : PolarAccuracy u d A) (hdB : PolarAccuracy u d B) (hdd : PolarAccuracy u dd [⟨1, v⟩]) {L : ℕ}
    (heps : ∀ l, l ≤ L → e l ≤ eps * harmMax l) {q q' Q : Mom L} (hq : Flt.qmoments a L A q) (hq' : Flt.translate_qlm a q v q') (hQ : Flt.Qmomentsb a L B Q)
    {g : ℝ} (hg : a.op BIG_G g) {t : TorqueOut L} (ht : Flt.torque_lm a q' Q g t) {tau : ℝ} (htau : Flt.torques_at_angle a t.nc t.ns 0 false tau)
    (hA' : Flt.translate_point_array u A v A') {f T : V3} (hpm : Flt.point_matrix_gravity u A' B f T) :
    |tau - T 2| ≤ BIG_G * absMass A * absMass B * ((r + modulus v) * missed (r + modulus v) R L +
        (2 * L + 1) * (8 * (r + modulus v) * R / (R - (r + modulus v)) ^ 3) * movedBudget u d dd eps L (A.length + B.length) 0) + movedTorqueErr u A A' B (r + modulus v) R 2 := by
  have h1' : u < 1 := by linarith
  have hv := modulus_nonneg v
  have hrR' : r + modulus v < R := by nlinarith
  obtain ⟨A1, f0, T0, k1, k2, k3⟩ := C131_torque h0 h1 ha A B v r R d dd eps hr hrR' hA hB hdA hdB hdd heps hq hq' hQ hg ht 0 htau
  rw [rotate_none _ _ k1] at k2
  obtain ⟨f1, T1, k4, k5⟩ := C131_moved_points h0 h1' A A' B v r R hr hA hB hrR hA' hpm
  rw [k2, Option.some.injEq, Prod.mk.injEq] at k4
  obtain ⟨rfl, rfl⟩ := k4
  have k6 := (k5 2).2
  calc |tau - T 2| = |(tau - T0 2) - (T 2 - T0 2)| := by congr 1; ring
    _ ≤ |tau - T0 2| + |T 2 - T0 2| := abs_sub _ _
    _ ≤ _ := add_le_add k3 k6

/-- **C131 (the force three ways).**  `translate_qlm` and `multipole_force` without displacement, `multipole_force` with the displacement, and `translate_point_array` with
`point_matrix_gravity`: in floating point arithmetic the first agrees with each of the others up to truncation and rounding errors. -/
theorem C131_force_three_ways (h0 : 0 ≤ u) (h1 : u ≤ 1 / 4) (ha : Accurate a u e) (A B : PtArray) (v : V3) (r R d dd eps : ℝ) (hr : 0 ≤ r)
    (hrR : (1 + u) * (r + modulus v) < R)
    (hA : ∀ p ∈ A, originDist p ≤ r) (hB : ∀ p ∈ B, R ≤ originDist p) (hdA : PolarAccuracy u d A) (hdB : PolarAccuracy u d B) (hdd : PolarAccuracy u dd [⟨1, v⟩]) {L : ℕ}
    (hL : 1 ≤ L) (heps : ∀ l, l ≤ L → e l ≤ eps * harmMax l) {q q' Q : Mom L} (hq : Flt.qmoments a L A q) (hq' : Flt.translate_qlm a q v q') (hQ : Flt.Qmomentsb a L B Q)
    {g : ℝ} (hg : a.op BIG_G g) {F : Fin 3 → ℂ} (hF : Flt.multipole_force a q' Q 0 0 0 g F) (i : Fin 3) :
    (∀ {F' : Fin 3 → ℂ}, Flt.multipole_force a q Q (v 0) (v 1) (v 2) g F' → ‖F i - F' i‖ ≤
      BIG_G * absMass A * absMass B * (missed (r + modulus v) R L +
        (2 * L + 1) * (15 / 2 * (R + 3 * (r + modulus v)) / (R - (r + modulus v)) ^ 3) * movedForceBudget u d dd eps L (A.length + B.length)) +
      (BIG_G * absMass A * absMass B * missed (r + modulus v) R L + forceBudget u d eps L (A.length + B.length) *
        grossForceOf BIG_G L (fun l _ => absMass A * r ^ l * harmMax l) (fun l _ => absMass B * (1 / R ^ (l + 1)) * harmMax l) (modulus v))) ∧
    ∀ {A' : PtArray} {f T : V3}, Flt.translate_point_array u A v A' → Flt.point_matrix_gravity u A' B f T → ‖F i - (f i : ℂ)‖ ≤
      BIG_G * absMass A * absMass B * (missed (r + modulus v) R L +
        (2 * L + 1) * (15 / 2 * (R + 3 * (r + modulus v)) / (R - (r + modulus v)) ^ 3) * movedForceBudget u d dd eps L (A.length + B.length)) +
      movedForceErr u A A' B (r + modulus v) R i := by
  have h1' : u < 1 := by linarith
  have hv := modulus_nonneg v
  have hrR' : r + modulus v < R := by nlinarith
  obtain ⟨f0, T0, k2, k3⟩ := C131_force h0 h1 ha A B v r R d dd eps hr hrR' hA hB hdA hdB hdd hL heps hq hq' hQ hg hF
  refine ⟨fun {F'} hF' => ?_, fun {A' f T} hA' hpm => ?_⟩
  · obtain ⟨f1, T1, k4, k5⟩ := C129_points h0 h1 ha A B v r R d eps hr hrR' hA hB hdA hdB hL heps hq hQ hg hF'
    rw [k2, Option.some.injEq, Prod.mk.injEq] at k4
    obtain ⟨rfl, rfl⟩ := k4
    calc ‖F i - F' i‖ = ‖(F i - (f0 i : ℂ)) - (F' i - (f0 i : ℂ))‖ := by congr 1; ring
      _ ≤ ‖F i - (f0 i : ℂ)‖ + ‖F' i - (f0 i : ℂ)‖ := norm_sub_le _ _
      _ ≤ _ := add_le_add (k3 i) (k5 i)
  · obtain ⟨f1, T1, k4, k5⟩ := C131_moved_points h0 h1' A A' B v r R hr hA hB hrR hA' hpm
    rw [k2, Option.some.injEq, Prod.mk.injEq] at k4
    obtain ⟨rfl, rfl⟩ := k4
    have h6 : ‖((f i : ℂ) - (f0 i : ℂ))‖ = |f i - f0 i| := by rw [← Complex.ofReal_sub, Complex.norm_real, Real.norm_eq_abs]
    calc ‖F i - (f i : ℂ)‖ = ‖(F i - (f0 i : ℂ)) - ((f i : ℂ) - (f0 i : ℂ))‖ := by congr 1; ring
      _ ≤ ‖F i - (f0 i : ℂ)‖ + |f i - f0 i| := (norm_sub_le _ _).trans (by rw [h6])
      _ ≤ _ := add_le_add (k3 i) (k5 i).1

/-- **C131 (double precision).**  Up to degree 10, for up to 100000 rows and an angle within one turn, with every operation accurate to `2^-53`: the relative rounding errors
are below `7e-6` if `sph_harm` is accurate to `1e-7` of its largest value, and below `2e-10` if it is accurate to `1e-13` and neither a row nor the displacement is within 6 degrees
of the `z` axis. -/
theorem C131_double {L N : ℕ} (hL : L ≤ 10) (hN : N ≤ 100000) {angle eps : ℝ} (hang : |angle| ≤ 7) (heps : 0 ≤ eps) :
    (eps ≤ 1e-7 → movedBudget ((2 : ℝ)⁻¹ ^ 53) (Real.sqrt (relErr ((2 : ℝ)⁻¹ ^ 53) 4 / 2)) (Real.sqrt (relErr ((2 : ℝ)⁻¹ ^ 53) 4 / 2)) eps L N angle ≤ 7e-6 ∧
      movedForceBudget ((2 : ℝ)⁻¹ ^ 53) (Real.sqrt (relErr ((2 : ℝ)⁻¹ ^ 53) 4 / 2)) (Real.sqrt (relErr ((2 : ℝ)⁻¹ ^ 53) 4 / 2)) eps L N ≤ 7e-6) ∧
    (eps ≤ 1e-13 → movedBudget ((2 : ℝ)⁻¹ ^ 53) (relErr ((2 : ℝ)⁻¹ ^ 53) 4 / (1 / 10)) (relErr ((2 : ℝ)⁻¹ ^ 53) 4 / (1 / 10)) eps L N angle ≤ 2e-10 ∧
      movedForceBudget ((2 : ℝ)⁻¹ ^ 53) (relErr ((2 : ℝ)⁻¹ ^ 53) 4 / (1 / 10)) (relErr ((2 : ℝ)⁻¹ ^ 53) 4 / (1 / 10)) eps L N ≤ 2e-10) := by
  have hu : (0 : ℝ) ≤ (2 : ℝ)⁻¹ ^ 53 := by positivity
  have hu1 : (2 : ℝ)⁻¹ ^ 53 < 1 := by norm_num
  have B := C128_double (L := L) (by omega) hN hang heps
  have Fb := C129_double (L := L) (by omega) hN heps
  have Tr := C130_double (N := L) hL (by omega) heps
  have h40 := relErr_nonneg hu hu1 4
  have T1 := transGrow_one_le hu hu1 (Real.sqrt_nonneg (relErr ((2 : ℝ)⁻¹ ^ 53) 4 / 2)) heps L L
  have T2 := transGrow_one_le hu hu1 (by positivity : 0 ≤ relErr ((2 : ℝ)⁻¹ ^ 53) 4 / (1 / 10)) heps L L
  have key : ∀ {b t x y z : ℝ}, b ≤ x → t - 1 ≤ y → 1 ≤ t → 0 ≤ x → (1 + x) * (1 + y) - 1 ≤ z → (1 + b) * t - 1 ≤ z := by
    intro b t x y z k1 k2 k3 k4 k5
    have h2 : (1 + b) * t ≤ (1 + x) * t := mul_le_mul_of_nonneg_right (by linarith) (by linarith)
    have h3 : (1 + x) * t ≤ (1 + x) * (1 + y) := mul_le_mul_of_nonneg_left (by linarith) (by linarith)
    linarith
  refine ⟨fun he => ⟨?_, ?_⟩, fun he => ⟨?_, ?_⟩⟩
  · exact key (B.1 he) (Tr.2.1 he) T1 (by norm_num) (by norm_num)
  · exact key (Fb.2.1 he) (Tr.2.1 he) T1 (by norm_num) (by norm_num)
  · exact key (B.2 (he.trans (by norm_num))) (Tr.1 he) T2 (by norm_num) (by norm_num)
  · exact key (Fb.2.2 (he.trans (by norm_num))) (Tr.1 he) T2 (by norm_num) (by norm_num)

-- a run of every way in correctly rounded double precision: rows inside radius 2, moved by less than 2, sources outside radius 5
example : ∃ (q q' Q : Mom 3) (t : TorqueOut 3) (tau : ℝ) (F F' : Fin 3 → ℂ), Flt.qmoments ieee53 3 [⟨2, ![1, 0, 1]⟩, ⟨5, ![0, 1, 0]⟩] q ∧ Flt.translate_qlm ieee53 q ![1, 0, 1] q' ∧
    Flt.Qmomentsb ieee53 3 [⟨2, ![3, 4, 1]⟩] Q ∧ Flt.torque_lm ieee53 q' Q (binRound 53 BIG_G) t ∧ Flt.torques_at_angle ieee53 t.nc t.ns 1 false tau ∧
    Flt.multipole_force ieee53 q' Q 0 0 0 (binRound 53 BIG_G) F ∧ Flt.multipole_force ieee53 q Q 1 0 1 (binRound 53 BIG_G) F' ∧ ieee53.op BIG_G (binRound 53 BIG_G) ∧
    (∀ p ∈ ([⟨2, ![1, 0, 1]⟩, ⟨5, ![0, 1, 0]⟩] : PtArray), originDist p ≤ 2) ∧ (∀ p ∈ ([⟨2, ![3, 4, 1]⟩] : PtArray), 5 ≤ originDist p) ∧
    (1 + (2 : ℝ)⁻¹ ^ 53) * (2 + modulus ![1, 0, 1]) < 5 := by
  have hA : OffOrigin ([⟨2, ![1, 0, 1]⟩, ⟨5, ![0, 1, 0]⟩] : PtArray) := by
    intro p hp hc
    simp only [List.mem_cons, List.not_mem_nil, or_false] at hp
    rcases hp with rfl | rfl
    · have := congrFun hc 0; simp at this
    · have := congrFun hc 1; simp at this
  obtain ⟨q, hq⟩ := (C127_returns (u := (2 : ℝ)⁻¹ ^ 53) (by positivity) (by norm_num) ieee53_accurate ieee53_total (b := 53) (by norm_num) ieee53_nearest 3
    [⟨2, ![1, 0, 1]⟩, ⟨5, ![0, 1, 0]⟩] (by
      intro p hp
      simp only [List.mem_cons, List.not_mem_nil, or_false] at hp
      rcases hp with rfl | rfl
      · exact rep_one (by norm_num)
      · exact rep_zero _)).2 (by rw [qmoments_closed 3 _ (Or.inr hA.originLast)]; rfl)
  obtain ⟨Q, hQ⟩ := C127_outer_returns (u := (2 : ℝ)⁻¹ ^ 53) (by positivity) (by norm_num) ieee53_accurate ieee53_total (b := 53) (by norm_num) ieee53_nearest 3
    [⟨2, ![3, 4, 1]⟩] (by
      intro p hp
      rw [List.mem_singleton] at hp
      subst hp
      exact rep_one (by norm_num))
  obtain ⟨q', hq'⟩ := (C130_returns (u := (2 : ℝ)⁻¹ ^ 53) (by positivity) (by norm_num) ieee53_accurate ieee53_total (b := 53) (by norm_num) ieee53_nearest q (d := ![1, 0, 1])
    (rep_one (by norm_num))).1
  obtain ⟨t, ht⟩ := C128_torque_lm_returns ieee53_total q' Q (binRound 53 BIG_G)
  have hlen : t.nc ≠ [] ∧ t.nc.length ≤ t.ns.length := by
    obtain ⟨c, -, -, nm, -, h1, h2, -⟩ := ht
    exact ⟨fun h => by rw [h] at h1; simp at h1, by omega⟩
  obtain ⟨tau, htau⟩ := (C128_returns ieee53_total t.nc t.ns 1 false).2 (by
    rw [Newt.torques_at_angle, if_neg (by rintro (h | h); exacts [hlen.1 h, absurd hlen.2 (by omega)])]; rfl)
  obtain ⟨F, hF⟩ := (C129_returns ieee53_total q' Q 0 0 0 (binRound 53 BIG_G)).2.2 (by norm_num)
  obtain ⟨F', hF'⟩ := (C129_returns ieee53_total q Q 1 0 1 (binRound 53 BIG_G)).2.2 (by norm_num)
  refine ⟨q, q', Q, t, tau, F, F', hq, hq', hQ, ht, htau, hF, hF', rfl, ?_, ?_, ?_⟩
  · intro p hp
    simp only [List.mem_cons, List.not_mem_nil, or_false] at hp
    rcases hp with rfl | rfl
    · rw [originDist, Real.sqrt_le_left (by norm_num)]; simp only [Matrix.cons_val]; norm_num
    · rw [originDist, Real.sqrt_le_left (by norm_num)]; simp only [Matrix.cons_val]; norm_num
  · intro p hp
    rw [List.mem_singleton] at hp
    subst hp
    rw [originDist]
    refine Real.le_sqrt_of_sq_le ?_
    simp only [Matrix.cons_val]
    norm_num
  · have h2 : modulus ![1, 0, 1] ≤ 3 / 2 := by
      rw [modulus, Real.sqrt_le_left (by norm_num)]
      simp only [Matrix.cons_val]
      norm_num
    calc (1 + (2 : ℝ)⁻¹ ^ 53) * (2 + modulus ![1, 0, 1]) ≤ (1 + (2 : ℝ)⁻¹ ^ 53) * (2 + 3 / 2) := by gcongr
      _ < 5 := by norm_num

end Newt
