import Verif.Proofs.SolidRounding3
import Verif.Props.Qlm
import Verif.Props.RecRounding

/-!
# C134: rounding of the closed-form moments of spheres, annular sections and cones
-/

namespace Newt

open Spec Flt

variable {a : Arith} {u : ℝ} {e : ℕ → ℝ}

theorem ofFn_of_fill {L : ℕ} {f : ℕ → ℕ → ℂ} {g : ℕ → ℤ → ℂ} (h : Qlm.fill L f = Mom.ofFn L g) {l : ℕ} {m : ℤ} (hl : l ≤ L) (hm : m.natAbs ≤ L) :
    (Qlm.fill L f).get l m = g l m := by rw [h, Mom.get_ofFn _ hl hm]

/-- **C134 (annular sections).**  In every entry, the array that `annulus` returns in floating point arithmetic differs from the moment of the uniform annular section
(an integral) by at most the growth factor less one times the closed form without subtractions. -/
theorem C134_annulus (h0 : 0 ≤ u) (h1 : u < 1) (ha : Accurate a u e) {L : ℕ} {mass H Ri Ro phic phih : ℝ} (hH : 0 < H) (hRi : 0 ≤ Ri) (hR : Ri < Ro) (hh : 0 < phih)
    (hpi : phih ≤ Real.pi) (hw : wallErr u Ri Ro < 1) {q' : Mom L} (h : Flt.annulus a L mass H Ri Ro phic phih (.ok q')) {l : ℕ} {m : ℤ} (hl : l ≤ L) (hm : m.natAbs ≤ l) :
    ‖q'.get l m - uniformMoment mass (prism H (sector Ri Ro phic phih)) l m‖ ≤ (annGrow u Ri Ro phic l - 1) * annAbs mass H Ri Ro l m.natAbs := by
  obtain ⟨pi0, hp, h⟩ := h
  split_ifs at h with hbad
  obtain ⟨Po, Pi, rf, f0, k1, k2, k3, hf, h⟩ := h
  split_ifs at h with hrf
  obtain ⟨f, hcell, hq⟩ := h
  have hq' : q' = Qlm.fill L f := by injection hq
  have hd : 0 < Ro ^ 2 - Ri ^ 2 := by nlinarith
  have hex := C36_annulus L mass H Ri Ro phic phih hH hRi hR hh hpi
  rw [Qlm.annulus, if_neg (by push Not; exact ⟨hH, hR.le, hh, hpi, hRi⟩)] at hex
  simp only at hex
  rw [if_neg hd.ne'] at hex
  have hex' : Qlm.fill L (fun l m => Qlm.annulusCell mass H Ri Ro phic phih l m / ((Ro ^ 2 - Ri ^ 2 : ℝ) : ℂ)) =
      Mom.ofFn L (uniformMoment mass (prism H (sector Ri Ro phic phih))) := by injection hex
  rw [hq', ← ofFn_of_fill hex' hl (hm.trans hl)]
  have hrf' := wall_upTo h0 h1 ha hRi hR hw k1 k2 k3
  have W := fill_within' (L := L) (c := annGrow u Ri Ro phic l) (f := fun l m => Qlm.annulusCell mass H Ri Ro phic phih l m.toNat / ((Ro ^ 2 - Ri ^ 2 : ℝ) : ℂ))
    (g := fun l m => f l m.toNat) (w := fun l m => annAbs mass H Ri Ro l m.natAbs) (fun _ _ => rfl) hl (fun m hm0 hm1 => by
      obtain ⟨z, hz, hv⟩ := hcell l m.toNat hl (by omega)
      rw [show m.natAbs = m.toNat by omega]
      exact annCell_within h0 h1 ha hH hRi hR hh hw hp hf hrf' (by omega) hz hv) hm
  exact W.2

/-- **C134 (sections of cones).** -/
theorem C134_cone (h0 : 0 ≤ u) (h1 : u < 1) (ha : Accurate a u e) {L : ℕ} {mass P R phic phih : ℝ} (hP : 0 < P) (hR : 0 < R) (hh : 0 < phih) (hpi : phih ≤ Real.pi)
    {q' : Mom L} (h : Flt.cone a L mass P R phic phih (.ok q')) {l : ℕ} {m : ℤ} (hl : l ≤ L) (hm : m.natAbs ≤ l) :
    ‖q'.get l m - uniformMoment mass (coneOver P (sector 0 R phic phih)) l m‖ ≤ (coneGrow u phic l - 1) * coneAbs mass P R l m.natAbs := by
  obtain ⟨pi0, hp, h⟩ := h
  split_ifs at h with hbad
  obtain ⟨f0, f, hf, hcell, hq⟩ := h
  have hq' : q' = Qlm.fill L f := by injection hq
  have hex := C36_cone L mass P R phic phih hP hR hh hpi
  rw [Qlm.cone, if_neg (by push Not; exact ⟨hP, hR, hh, hpi⟩)] at hex
  have hex' : Qlm.fill L (Qlm.coneCell mass P R phic phih) = Mom.ofFn L (uniformMoment mass (coneOver P (sector 0 R phic phih))) := by injection hex
  rw [hq', ← ofFn_of_fill hex' hl (hm.trans hl)]
  have W := fill_within' (L := L) (c := coneGrow u phic l) (f := fun l m => Qlm.coneCell mass P R phic phih l m.toNat)
    (g := fun l m => f l m.toNat) (w := fun l m => coneAbs mass P R l m.natAbs) (fun _ _ => rfl) hl (fun m hm0 hm1 => by
      rw [show m.natAbs = m.toNat by omega]
      exact coneCell_within h0 h1 ha hP hR hh hp hf (by omega) (hcell l m.toNat hl (by omega))) hm
  exact W.2

/-- **C134 (spheres).**  The one entry of a ball's array that does not vanish has the relative error of three roundings; the others are exactly zero. -/
theorem C134_sphere (h0 : 0 ≤ u) (h1 : u < 1) (ha : Accurate a u e) {L : ℕ} {mass R : ℝ} (hR : 0 < R) {q' : Mom L} (h : Flt.sphere a L mass R q') {l : ℕ} {m : ℤ}
    (hl : l ≤ L) (hm : m.natAbs ≤ l) : ‖q'.get l m - uniformMoment mass (ball R) l m‖ ≤ relErr u 3 * ‖uniformMoment mass (ball R) l m‖ ∧
      (l ≠ 0 → q'.get l m = 0) := by
  obtain ⟨pi0, s, v, hp, hs, hv, rfl⟩ := h
  have hex : uniformMoment mass (ball R) l m = if l = 0 ∧ m = 0 then ((mass / Real.sqrt (4 * Real.pi) : ℝ) : ℂ) else 0 := by
    have := congrArg (fun q : Mom L => q.get l m) (C36_sphere L mass R hR)
    simp only [Qlm.sphere] at this
    rw [Mom.get_ofFn _ hl (hm.trans hl), Mom.get_ofFn _ hl (hm.trans hl)] at this
    exact this.symm
  rw [hex, Mom.get_ofFn _ hl (hm.trans hl)]
  by_cases h00 : l = 0 ∧ m = 0
  · rw [if_pos h00, if_pos h00]
    refine ⟨?_, fun h => absurd h00.1 h⟩
    have p1 := op_up h0 h1 ha (up_refl Real.pi) hp
    have p2 := op_up h0 h1 ha ((mul_up h0 h1 (up_refl 4) p1).sqrt (grow_one_le h0 h1 _)) hs
    have p3 := op_up h0 h1 ha (div_up h0 h1 (up_refl mass) p2) hv
    have w := (p3.within (grow_one_le h0 h1 _)).2
    rw [← Complex.ofReal_sub, Complex.norm_real, Complex.norm_real]
    rw [grow, add_sub_cancel_left] at w
    exact w
  · rw [if_neg h00, if_neg h00]
    exact ⟨by simp, fun _ => rfl⟩

/-- **C134 (errors).**  Whether a call is rejected depends only on the parameters themselves and the machine's `pi`, and under the hypothesis of `C134_annulus` no division by
a vanishing thickness occurs. -/
theorem C134_rejected (h0 : 0 ≤ u) (h1 : u < 1) (ha : Accurate a u e) {L : ℕ} {mass H Ri Ro phic phih : ℝ} {r : Qlm.Res L} (h : Flt.annulus a L mass H Ri Ro phic phih r) :
    (r = .valueError → H ≤ 0 ∨ Ro < Ri ∨ phih ≤ 0 ∨ (∃ pi0, a.op Real.pi pi0 ∧ pi0 < phih) ∨ Ri < 0) ∧
    (H ≤ 0 ∨ Ro < Ri ∨ phih ≤ 0 ∨ Ri < 0 ∨ Real.pi * (1 + u) < phih → r = .valueError) ∧
    (0 ≤ Ri → Ri < Ro → wallErr u Ri Ro < 1 → r ≠ .nan) := by
  obtain ⟨pi0, hp, h⟩ := h
  have hpb : pi0 ≤ Real.pi * (1 + u) := by
    have := (abs_le.1 (ha.op _ _ hp)).2
    rw [abs_of_pos Real.pi_pos] at this
    linarith
  split_ifs at h with hbad
  · subst h
    refine ⟨fun _ => ?_, fun _ => rfl, fun _ _ _ h => by injection h⟩
    rcases hbad with h | h | h | h | h
    · exact Or.inl h
    · exact Or.inr (Or.inl h)
    · exact Or.inr (Or.inr (Or.inl h))
    · exact Or.inr (Or.inr (Or.inr (Or.inl ⟨pi0, hp, h⟩)))
    · exact Or.inr (Or.inr (Or.inr (Or.inr h)))
  · obtain ⟨Po, Pi, rf, f0, k1, k2, k3, hf, h⟩ := h
    push Not at hbad
    obtain ⟨b1, b2, b3, b4, b5⟩ := hbad
    refine ⟨fun hr => ?_, fun hx => ?_, fun hRi hR hw hr => ?_⟩
    · split_ifs at h
      · rw [hr] at h; injection h
      · obtain ⟨f, -, h⟩ := h
        rw [hr] at h; injection h
    · rcases hx with h | h | h | h | h <;> linarith
    · split_ifs at h with hz
      · obtain ⟨θ, e1, t1, t2⟩ := wall_upTo h0 h1 ha hRi hR hw k1 k2 k3
        have hd : 0 < Ro ^ 2 - Ri ^ 2 := by nlinarith
        have hw0 : 0 ≤ wallErr u Ri Ro := mul_nonneg h0 (div_nonneg (by positivity) hd.le)
        have g1 := grow_one_le h0 h1 1
        have ht : 0 < θ := lt_of_lt_of_le (inv_pos.2 (mul_pos (inv_pos.2 (by linarith)) (by linarith))) t1
        rw [hz] at e1
        exact (mul_pos ht hd).ne e1
      · obtain ⟨f, -, h⟩ := h
        rw [hr] at h; injection h

/-- **C134 (size).**  For the monopole of an annular section the size is the mass over `sqrt(4 pi)`, magnified by the thinness of the wall; for that of a cone it is the exact value. -/
theorem C134_size (mass : ℝ) {H Ri Ro P R : ℝ} (hR : Ri ^ 2 ≠ Ro ^ 2) :
    annAbs mass H Ri Ro 0 0 = |mass| * Real.sqrt (1 / (4 * Real.pi)) * ((Ro ^ 2 + Ri ^ 2) / (Ro ^ 2 - Ri ^ 2)) ∧
      coneAbs mass P R 0 0 = |mass| * Real.sqrt (1 / (4 * Real.pi)) := by
  have hd : Ro ^ 2 - Ri ^ 2 ≠ 0 := fun h => hR (by linarith)
  constructor
  · rw [annAbs, if_pos (by simp), solidNorm]
    simp
    field_simp
    try ring
  · rw [coneAbs, solidNorm]
    simp [Nat.factorial]
    try ring

theorem C134_nonneg (mass : ℝ) {H Ri Ro P R : ℝ} (hH : 0 < H) (hRi : 0 ≤ Ri) (hR : Ri < Ro) (hP : 0 < P) (hR' : 0 < R) (l m : ℕ) :
    0 ≤ annAbs mass H Ri Ro l m ∧ 0 ≤ coneAbs mass P R l m := ⟨annAbs_nonneg hH hRi hR l m, coneAbs_nonneg hP hR' l m⟩

theorem gamRoot_exists (hT : Total a) (l m : ℕ) : ∃ r, GamRoot a l m r := by
  obtain ⟨g1, k1⟩ := hT.lib (gammaln ((l : ℝ) + m + 1))
  obtain ⟨g2, k2⟩ := hT.lib (gammaln ((l : ℝ) - m + 1))
  obtain ⟨s, k3⟩ := hT.op (g1 + g2)
  obtain ⟨v, k4⟩ := hT.lib (Real.exp s)
  obtain ⟨r, k5⟩ := hT.op (Real.sqrt v)
  exact ⟨r, g1, g2, s, v, k1, k2, k3, k4, k5⟩

theorem sinc_exists (hT : Total a) (pi0 : ℝ) (m : ℕ) (phih : ℝ) : ∃ v, Sinc a pi0 m phih v := by
  by_cases hm : m = 0
  · exact ⟨1, Or.inl ⟨hm, rfl⟩⟩
  obtain ⟨x1, k1⟩ := hT.op (m * phih)
  obtain ⟨x2, k2⟩ := hT.op (x1 / pi0)
  obtain ⟨y, k3⟩ := hT.op (pi0 * x2)
  obtain ⟨s, k4⟩ := hT.lib (Real.sin y)
  obtain ⟨v, k5⟩ := hT.op (s / y)
  exact ⟨v, Or.inr ⟨hm, x1, x2, y, s, k1, k2, k3, k4, k5⟩⟩

theorem secFac_exists (hT : Total a) (pi0 F : ℝ) (l m : ℕ) (phic phih : ℝ) : ∃ z, SecFac a pi0 F l m phic phih z := by
  obtain ⟨r, k1⟩ := gamRoot_exists hT l m
  obtain ⟨f, k2⟩ := hT.op (F * r)
  obtain ⟨v, k3⟩ := sinc_exists hT pi0 m phih
  obtain ⟨E, k4⟩ := expI_exists hT m phic
  obtain ⟨w, k5⟩ := cscale_exists hT v E
  obtain ⟨z, k6⟩ := cscale_exists hT f w
  exact ⟨z, r, f, v, E, w, k1, k2, k3, k4, k5, k6⟩

theorem annTerm_exists (hT : Total a) (H Ri Ro : ℝ) (l m k : ℕ) : ∃ t, AnnTerm a H Ri Ro l m k t := by
  obtain ⟨h, k1⟩ := hT.lib (H ^ (l - 2 * k - m))
  obtain ⟨D, k2⟩ := hT.op ((2 : ℝ) ^ ((l : ℤ) - 1) * (2 * k + m + 2))
  obtain ⟨q, k3⟩ := hT.op ((-1) ^ (k + m) * h / D)
  obtain ⟨Po, k4⟩ := hT.lib (Ro ^ (2 * k + m + 2))
  obtain ⟨Pi, k5⟩ := hT.lib (Ri ^ (2 * k + m + 2))
  obtain ⟨d, k6⟩ := hT.op (Po - Pi)
  obtain ⟨g1, k7⟩ := hT.lib (gammaln ((k : ℝ) + 1))
  obtain ⟨g2, k8⟩ := hT.lib (gammaln ((m : ℝ) + k + 1))
  obtain ⟨s1, k9⟩ := hT.op (g1 + g2)
  obtain ⟨g3, k10⟩ := hT.lib (gammaln ((l : ℝ) - m - 2 * k + 2))
  obtain ⟨s2, k11⟩ := hT.op (s1 + g3)
  obtain ⟨g, k12⟩ := hT.lib (Real.exp s2)
  obtain ⟨e', k13⟩ := hT.op (d / g)
  obtain ⟨t, k14⟩ := hT.op (q * e')
  exact ⟨t, h, D, q, Po, Pi, d, g1, g2, g3, s1, s2, g, e', k1, k2, k3, k4, k5, k6, k7, k8, k9, k10, k11, k12, k13, k14⟩

theorem annCell_exists (hT : Total a) (pi0 f0 H Ri Ro phic phih : ℝ) (l m : ℕ) : ∃ z, AnnCell a pi0 f0 H Ri Ro phic phih l m z := by
  by_cases hpar : (l - m) % 2 = 0
  · obtain ⟨sq, k1⟩ := hT.op (Real.sqrt (2 * l + 1))
    obtain ⟨F, k2⟩ := hT.op (f0 * sq)
    obtain ⟨ts, k3⟩ := forall₂_exists (List.range ((l - m) / 2 + 1)) (fun k _ => annTerm_exists hT H Ri Ro l m k)
    obtain ⟨S, k4⟩ := adds_exists hT ts 0
    obtain ⟨f, k5⟩ := secFac_exists hT pi0 F l m phic phih
    obtain ⟨z, k6⟩ := cmul_exists hT (S : ℂ) f
    exact ⟨z, by rw [AnnCell, if_pos hpar]; exact ⟨sq, F, ts, S, f, k1, k2, k3, k4, k5, k6⟩⟩
  · exact ⟨0, by rw [AnnCell, if_neg hpar]⟩

theorem coneTerm_exists (hT : Total a) (P R : ℝ) (l m k : ℕ) : ∃ t, ConeTerm a P R l m k t := by
  obtain ⟨g1, k1⟩ := hT.lib (gammaln (2 * k + m + 2))
  obtain ⟨g2, k2⟩ := hT.lib (gammaln ((k : ℝ) + 1))
  obtain ⟨g3, k3⟩ := hT.lib (gammaln ((m : ℝ) + k + 1))
  obtain ⟨s1, k4⟩ := hT.op (g2 + g3)
  obtain ⟨s2, k5⟩ := hT.op (g1 - s1)
  obtain ⟨p, k6⟩ := hT.lib (P ^ (l - 2 * k - m))
  obtain ⟨r, k7⟩ := hT.lib (R ^ (2 * k + m))
  obtain ⟨q, k8⟩ := hT.op ((-1) ^ (k + m) * p * r)
  obtain ⟨v, k9⟩ := hT.op (q / (2 : ℝ) ^ ((2 * k + m : ℤ) - 1))
  obtain ⟨x, k10⟩ := hT.lib (Real.exp s2)
  obtain ⟨t, k11⟩ := hT.op (v * x)
  exact ⟨t, g1, g2, g3, s1, s2, p, r, q, v, x, k1, k2, k3, k4, k5, k6, k7, k8, k9, k10, k11⟩

theorem coneCell_exists (hT : Total a) (pi0 f0 P R phic phih : ℝ) (l m : ℕ) : ∃ z, ConeCell a pi0 f0 P R phic phih l m z := by
  obtain ⟨sq, k1⟩ := hT.op (Real.sqrt (2 * l + 1))
  obtain ⟨p, k2⟩ := hT.op (f0 * sq)
  obtain ⟨g, k3⟩ := hT.lib (gammaln ((l : ℝ) + 4))
  obtain ⟨x, k4⟩ := hT.lib (Real.exp g)
  obtain ⟨F, k5⟩ := hT.op (p / x)
  obtain ⟨ts, k6⟩ := forall₂_exists (List.range ((l - m) / 2 + 1)) (fun k _ => coneTerm_exists hT P R l m k)
  obtain ⟨S, k7⟩ := adds_exists hT ts 0
  obtain ⟨f, k8⟩ := secFac_exists hT pi0 F l m phic phih
  obtain ⟨z, k9⟩ := cmul_exists hT (S : ℂ) f
  exact ⟨z, F, ts, S, f, ⟨sq, p, g, x, k1, k2, k3, k4, k5⟩, k6, k7, k8, k9⟩

/-- **C134 (the calls return).** -/
theorem C134_returns (h0 : 0 ≤ u) (h1 : u < 1) (ha : Accurate a u e) (hT : Total a) (L : ℕ) (mass : ℝ) {H Ri Ro P R phic phih : ℝ} (hH : 0 < H) (hRi : 0 ≤ Ri) (hR : Ri < Ro)
    (hP : 0 < P) (hR' : 0 < R) (hh : 0 < phih) (hpi : phih ≤ Real.pi * (1 - u)) (hw : wallErr u Ri Ro < 1) :
    (∃ q', Flt.annulus a L mass H Ri Ro phic phih (.ok q')) ∧ (∃ q', Flt.cone a L mass P R phic phih (.ok q')) ∧ ∃ q', Flt.sphere a L mass R q' := by
  obtain ⟨pi0, hp⟩ := hT.op Real.pi
  have hpb : phih ≤ pi0 := by
    have := (abs_le.1 (ha.op _ _ hp)).1
    rw [abs_of_pos Real.pi_pos] at this
    linarith
  obtain ⟨i, k1⟩ := hT.op (1 / (4 * pi0))
  obtain ⟨s, k2⟩ := hT.op (Real.sqrt i)
  refine ⟨?_, ?_, ?_⟩
  · obtain ⟨f0, k3⟩ := hT.op (mass * s)
    obtain ⟨Po, k4⟩ := hT.lib (Ro ^ 2)
    obtain ⟨Pi, k5⟩ := hT.lib (Ri ^ 2)
    obtain ⟨rf, k6⟩ := hT.op (Po - Pi)
    have hrf : rf ≠ 0 := by
      obtain ⟨θ, e1, t1, t2⟩ := wall_upTo h0 h1 ha hRi hR hw k4 k5 k6
      have hd : 0 < Ro ^ 2 - Ri ^ 2 := by nlinarith
      have g1 := grow_one_le h0 h1 1
      have ht : 0 < θ := lt_of_lt_of_le (inv_pos.2 (mul_pos (inv_pos.2 (by linarith)) (by linarith))) t1
      rw [e1]
      exact (mul_pos ht hd).ne'
    choose z hz using fun l m : ℕ => annCell_exists hT pi0 f0 H Ri Ro phic phih l m
    choose f hf using fun l m : ℕ => cdiv_exists hT (z l m) rf
    refine ⟨Qlm.fill L f, pi0, hp, ?_⟩
    rw [if_neg (by push Not; exact ⟨hH, hR.le, hh, hpb, hRi⟩)]
    refine ⟨Po, Pi, rf, f0, k4, k5, k6, ⟨i, s, k1, k2, k3⟩, ?_⟩
    rw [if_neg hrf]
    exact ⟨f, fun l m _ _ => ⟨z l m, hz l m, hf l m⟩, rfl⟩
  · obtain ⟨t, k3⟩ := hT.op (3 * mass)
    obtain ⟨f0, k4⟩ := hT.op (t * s)
    choose f hf using fun l m : ℕ => coneCell_exists hT pi0 f0 P R phic phih l m
    refine ⟨Qlm.fill L f, pi0, hp, ?_⟩
    rw [if_neg (by push Not; exact ⟨hP, hR', hh, hpb⟩)]
    exact ⟨f0, f, ⟨t, i, s, k3, k1, k2, k4⟩, fun l m _ _ => hf l m, rfl⟩
  · obtain ⟨s', k3⟩ := hT.op (Real.sqrt (4 * pi0))
    obtain ⟨v, k4⟩ := hT.op (mass / s')
    exact ⟨_, pi0, s', v, hp, k3, k4, rfl⟩

theorem log_fct_bits {n : ℤ} {N b : ℕ} (hn : n.toNat ≤ N) (hb : N.factorial ≤ 2 ^ b) : Real.log (fct n) ≤ b := by
  have k1 : n.toNat.factorial ≤ 2 ^ b := (Nat.factorial_le hn).trans hb
  have k2 : ((n.toNat.factorial : ℕ) : ℝ) ≤ 2 ^ b := by exact_mod_cast k1
  rw [fct]
  calc Real.log (n.toNat.factorial) ≤ Real.log (2 ^ b) := Real.log_le_log (by exact_mod_cast Nat.factorial_pos _) k2
    _ = b * Real.log 2 := by rw [Real.log_pow]
    _ ≤ b * 1 := by
        have := Real.log_le_sub_one_of_pos (by norm_num : (0 : ℝ) < 2)
        exact mul_le_mul_of_nonneg_left (by linarith) (by positivity)
    _ = b := mul_one _

/-- **C134 (double precision).**  Up to degree 10, for a wall not thinner than a tenth, thirteen digits. -/
theorem C134_double {l : ℕ} (hl : l ≤ 10) {Ri Ro phic : ℝ} (hphi : |phic| ≤ 7) (hRi : 0 ≤ Ri) (hR : Ri < Ro) (hwall : Ro ^ 2 + Ri ^ 2 ≤ 10 * (Ro ^ 2 - Ri ^ 2)) :
    annGrow ((2 : ℝ)⁻¹ ^ 53) Ri Ro phic l - 1 ≤ 1.5e-13 ∧ coneGrow ((2 : ℝ)⁻¹ ^ 53) phic l - 1 ≤ 2.4e-13 ∧ wallErr ((2 : ℝ)⁻¹ ^ 53) Ri Ro < 1 := by
  have hu : (0 : ℝ) ≤ (2 : ℝ)⁻¹ ^ 53 := by positivity
  have hu1 : (2 : ℝ)⁻¹ ^ 53 < 1 := by norm_num
  have hl' : (l : ℝ) ≤ 10 := by exact_mod_cast hl
  have hd : 0 < Ro ^ 2 - Ri ^ 2 := by nlinarith
  have k3 : relErr ((2 : ℝ)⁻¹ ^ 53) 3 ≤ 6.7e-16 := (rel_double (n := 3) le_rfl (by norm_num)).trans (by norm_num)
  have k46 : relErr ((2 : ℝ)⁻¹ ^ 53) (36 + l) ≤ 1.03e-14 := (rel_double (n := 46) (by omega) (by norm_num)).trans (by norm_num)
  have j3 := relErr_nonneg hu hu1 3
  have j46 := relErr_nonneg hu hu1 (36 + l)
  have l1 : Real.log (fct ((l : ℤ) + 1)) ≤ 26 := by exact_mod_cast log_fct_bits (n := (l : ℤ) + 1) (N := 11) (b := 26) (by omega) (by decide +kernel)
  have l2 : Real.log (fct (2 * (l : ℤ))) ≤ 62 := by exact_mod_cast log_fct_bits (n := 2 * (l : ℤ)) (N := 20) (b := 62) (by omega) (by decide +kernel)
  have l3 : Real.log (fct ((l : ℤ) + 3)) ≤ 33 := by exact_mod_cast log_fct_bits (n := (l : ℤ) + 3) (N := 13) (b := 33) (by omega) (by decide +kernel)
  have n1 := log_fct_nonneg ((l : ℤ) + 1)
  have n2 := log_fct_nonneg (2 * (l : ℤ))
  have n3 := log_fct_nonneg ((l : ℤ) + 3)
  have E1 : Real.exp (relErr ((2 : ℝ)⁻¹ ^ 53) 3 * (Real.log (fct ((l : ℤ) + 1)) + Real.log (fct (2 * (l : ℤ))))) ≤ 1 + 2 * 6e-14 :=
    exp_le_of ((mul_le_mul k3 (add_le_add l1 l2) (by linarith) (by norm_num)).trans (by norm_num)) (by norm_num) (by norm_num)
  have E2 : Real.exp (relErr ((2 : ℝ)⁻¹ ^ 53) 3 * (2 * Real.log (fct ((l : ℤ) + 1)) + Real.log (fct ((l : ℤ) + 3)) + Real.log (fct (2 * (l : ℤ))))) ≤ 1 + 2 * 1e-13 :=
    exp_le_of ((mul_le_mul k3 (by linarith : _ ≤ (147 : ℝ)) (by linarith) (by norm_num)).trans (by norm_num)) (by norm_num) (by norm_num)
  have ph : (2 : ℝ)⁻¹ ^ 53 * (l * |phic|) ≤ 7.8e-15 := by
    calc (2 : ℝ)⁻¹ ^ 53 * (l * |phic|) ≤ (2 : ℝ)⁻¹ ^ 53 * (10 * 7) := by gcongr
      _ ≤ _ := by norm_num
  have ph0 : 0 ≤ (2 : ℝ)⁻¹ ^ 53 * (l * |phic|) := mul_nonneg hu (by positivity)
  have tri : ∀ {x y z a b c : ℝ}, 0 ≤ x → x ≤ a → 0 ≤ y → y ≤ b → 0 ≤ z → z ≤ c → x * (1 + y) * (1 + z) ≤ a * (1 + b) * (1 + c) := by
    intro x y z a b c hx hxa hy hyb hz hzc
    exact mul_le_mul (mul_le_mul hxa (by linarith) (by linarith) (hx.trans hxa)) (by linarith) (by linarith) (mul_nonneg (hx.trans hxa) (by linarith))
  have hw : wallErr ((2 : ℝ)⁻¹ ^ 53) Ri Ro ≤ 1.2e-15 := by
    have : (Ro ^ 2 + Ri ^ 2) / (Ro ^ 2 - Ri ^ 2) ≤ 10 := (div_le_iff₀ hd).2 hwall
    calc wallErr ((2 : ℝ)⁻¹ ^ 53) Ri Ro ≤ (2 : ℝ)⁻¹ ^ 53 * 10 := mul_le_mul_of_nonneg_left this hu
      _ ≤ _ := by norm_num
  have e0 := Real.exp_pos (relErr ((2 : ℝ)⁻¹ ^ 53) 3 * (Real.log (fct ((l : ℤ) + 1)) + Real.log (fct (2 * (l : ℤ)))))
  have e0' := Real.exp_pos (relErr ((2 : ℝ)⁻¹ ^ 53) 3 * (2 * Real.log (fct ((l : ℤ) + 1)) + Real.log (fct ((l : ℤ) + 3)) + Real.log (fct (2 * (l : ℤ)))))
  refine ⟨?_, ?_, by linarith⟩
  · have : annGrow ((2 : ℝ)⁻¹ ^ 53) Ri Ro phic l ≤ (1 + 2 * 6e-14) * (1 + 1.03e-14) * (1 + 7.8e-15) / (1 - 1.2e-15) := by
      rw [annGrow]
      refine div_le_div₀ (by norm_num) (tri e0.le E1 j46 k46 ph0 ph) (by norm_num) (by linarith)
    have n : (1 + 2 * 6e-14) * (1 + 1.03e-14) * (1 + 7.8e-15) / (1 - 1.2e-15) ≤ (1 + 1.5e-13 : ℝ) := by norm_num
    linarith
  · have : coneGrow ((2 : ℝ)⁻¹ ^ 53) phic l ≤ (1 + 2 * 1e-13) * (1 + 1.03e-14) * (1 + 7.8e-15) := by
      rw [coneGrow]
      exact tri e0'.le E2 j46 k46 ph0 ph
    have n : (1 + 2 * 1e-13) * (1 + 1.03e-14) * (1 + 7.8e-15) ≤ (1 + 2.4e-13 : ℝ) := by norm_num
    linarith

/-- The double precision moments of a half ring of mass 1, of radii 1 and 2 and of height 1, about azimuth 1: the monopole is that of the body to within `1e-13`. -/
example : ∃ q' : Mom 4, Flt.annulus ieee53 4 1 1 1 2 1 (3 / 2) (.ok q') ∧ ‖q'.get 0 0 - uniformMoment 1 (prism 1 (sector 1 2 1 (3 / 2))) 0 0‖ ≤ 1e-13 := by
  have hu : (0 : ℝ) ≤ (2 : ℝ)⁻¹ ^ 53 := by positivity
  have hu1 : (2 : ℝ)⁻¹ ^ 53 < 1 := by norm_num
  have hpi := Real.pi_gt_three
  obtain ⟨d1, -, d3⟩ := C134_double (l := 0) (by norm_num) (Ri := 1) (Ro := 2) (phic := 1) (by norm_num) (by norm_num) (by norm_num) (by norm_num)
  obtain ⟨⟨q', h⟩, -⟩ := C134_returns hu hu1 ieee53_accurate ieee53_total 4 1 (H := 1) (Ri := 1) (Ro := 2) (P := 1) (R := 1) (phic := 1) (phih := 3 / 2) (by norm_num) (by norm_num)
    (by norm_num) (by norm_num) (by norm_num) (by norm_num) (by
      have : (1 / 2 : ℝ) ≤ 1 - (2 : ℝ)⁻¹ ^ 53 := by norm_num
      nlinarith) d3
  refine ⟨q', h, ?_⟩
  refine (C134_annulus hu hu1 ieee53_accurate (by norm_num) (by norm_num) (by norm_num) (by norm_num) (by linarith) d3 h (l := 0) (m := 0) (by norm_num) (by norm_num)).trans ?_
  rw [Int.natAbs_zero, (C134_size (P := 1) (R := 1) 1 (by norm_num)).1]
  have hs : Real.sqrt (1 / (4 * Real.pi)) ≤ 1 / 3 := by
    rw [Real.sqrt_le_left (by norm_num), div_le_iff₀ (by positivity)]
    linarith
  have hs0 := Real.sqrt_nonneg (1 / (4 * Real.pi))
  calc _ ≤ 1.5e-13 * (|(1 : ℝ)| * (1 / 3) * ((2 ^ 2 + 1 ^ 2) / (2 ^ 2 - 1 ^ 2))) := by
        refine mul_le_mul d1 ?_ (by rw [abs_one]; norm_num) (by norm_num)
        gcongr
    _ ≤ _ := by norm_num

/-- A cone section in double precision: the moment of degree 2 and order 1 of the returned array. -/
example : ∃ q' : Mom 4, Flt.cone ieee53 4 1 2 1 1 (3 / 2) (.ok q') ∧
    ‖q'.get 2 (-1) - uniformMoment 1 (coneOver 2 (sector 0 1 1 (3 / 2))) 2 (-1)‖ ≤ 2.4e-13 * coneAbs 1 2 1 2 1 ∧ 0 < coneAbs 1 2 1 2 1 := by
  have hu : (0 : ℝ) ≤ (2 : ℝ)⁻¹ ^ 53 := by positivity
  have hu1 : (2 : ℝ)⁻¹ ^ 53 < 1 := by norm_num
  have hpi := Real.pi_gt_three
  obtain ⟨-, d2, d3⟩ := C134_double (l := 2) (by norm_num) (Ri := 1) (Ro := 2) (phic := 1) (by norm_num) (by norm_num) (by norm_num) (by norm_num)
  obtain ⟨-, ⟨q', h⟩, -⟩ := C134_returns hu hu1 ieee53_accurate ieee53_total 4 1 (H := 1) (Ri := 1) (Ro := 2) (P := 2) (R := 1) (phic := 1) (phih := 3 / 2) (by norm_num) (by norm_num)
    (by norm_num) (by norm_num) (by norm_num) (by norm_num) (by
      have : (1 / 2 : ℝ) ≤ 1 - (2 : ℝ)⁻¹ ^ 53 := by norm_num
      nlinarith) d3
  have hn := coneAbs_nonneg (mass := 1) (P := 2) (R := 1) (by norm_num) (by norm_num) 2 1
  refine ⟨q', h, ?_, ?_⟩
  · exact (C134_cone hu hu1 ieee53_accurate (by norm_num) (by norm_num) (by norm_num) (by linarith) h (l := 2) (m := -1) (by norm_num) (by norm_num)).trans
      (mul_le_mul_of_nonneg_right d2 hn)
  · rw [coneAbs, solidNorm]
    have := Real.pi_pos
    refine mul_pos (Finset.sum_pos (fun k _ => by positivity) ⟨0, by simp⟩) ?_
    rw [abs_one]; positivity

/-- A section without height, one whose outer radius is the smaller, and one that spans more than the whole circle are rejected in double precision. -/
example (r : Qlm.Res 3) (h : Flt.annulus ieee53 3 1 0 1 2 0 1 r ∨ Flt.annulus ieee53 3 1 1 2 1 0 1 r ∨ Flt.annulus ieee53 3 1 1 1 2 0 7 r) : r = .valueError := by
  have hu : (0 : ℝ) ≤ (2 : ℝ)⁻¹ ^ 53 := by positivity
  have hu1 : (2 : ℝ)⁻¹ ^ 53 < 1 := by norm_num
  rcases h with h | h | h
  · exact (C134_rejected hu hu1 ieee53_accurate h).2.1 (Or.inl le_rfl)
  · exact (C134_rejected hu hu1 ieee53_accurate h).2.1 (Or.inr (Or.inl (by norm_num)))
  · refine (C134_rejected hu hu1 ieee53_accurate h).2.1 (Or.inr (Or.inr (Or.inr (Or.inr ?_))))
    have h4 := Real.pi_le_four
    have : (2 : ℝ)⁻¹ ^ 53 ≤ 1 / 2 := by norm_num
    nlinarith [Real.pi_pos]

/-- A ball in double precision. -/
example : ∃ q' : Mom 3, Flt.sphere ieee53 3 2 1 q' ∧ q'.get 2 1 = 0 ∧ ‖q'.get 0 0 - uniformMoment 2 (ball 1) 0 0‖ ≤ 6.7e-16 * ‖uniformMoment 2 (ball 1) 0 0‖ := by
  have hu : (0 : ℝ) ≤ (2 : ℝ)⁻¹ ^ 53 := by positivity
  have hu1 : (2 : ℝ)⁻¹ ^ 53 < 1 := by norm_num
  have hpi := Real.pi_gt_three
  obtain ⟨-, -, d3⟩ := C134_double (l := 2) (by norm_num) (Ri := 1) (Ro := 2) (phic := 1) (by norm_num) (by norm_num) (by norm_num) (by norm_num)
  obtain ⟨-, -, q', h⟩ := C134_returns hu hu1 ieee53_accurate ieee53_total 3 2 (H := 1) (Ri := 1) (Ro := 2) (P := 2) (R := 1) (phic := 1) (phih := 3 / 2) (by norm_num) (by norm_num)
    (by norm_num) (by norm_num) (by norm_num) (by norm_num) (by
      have : (1 / 2 : ℝ) ≤ 1 - (2 : ℝ)⁻¹ ^ 53 := by norm_num
      nlinarith) d3
  refine ⟨q', h, (C134_sphere hu hu1 ieee53_accurate (R := 1) (by norm_num) h (l := 2) (m := 1) (by norm_num) (by norm_num)).2 (by norm_num), ?_⟩
  have k3 : relErr ((2 : ℝ)⁻¹ ^ 53) 3 ≤ 6.7e-16 := (rel_double (n := 3) le_rfl (by norm_num)).trans (by norm_num)
  exact (C134_sphere hu hu1 ieee53_accurate (R := 1) (by norm_num) h (l := 0) (m := 0) (by norm_num) (by norm_num)).1.trans (mul_le_mul_of_nonneg_right k3 (norm_nonneg _))

end Newt
