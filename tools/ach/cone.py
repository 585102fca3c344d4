from cells import *
from gencells import NlmPf
out='''import Verif.Proofs.AchPlane
import Verif.Spec.SolidsAch
import Verif.Proofs.QlmCyl

/-! # Truncated cones -/

namespace Newt.Ach

open MeasureTheory Finset Spec

/-- Integrating a solid section by section. -/
theorem sections_int (S : Set (ℝ × (ℝ × ℝ))) (hS : IsCompact S) (a b : ℝ) (hab : a ≤ b) (D : ℝ → Set (ℝ × ℝ))
    (hD : ∀ z, MeasurableSet (D z)) (h : ∀ z q, (z, q) ∈ S ↔ z ∈ Set.Icc a b ∧ q ∈ D z) (e m k : ℕ) :
    ∫ p in S, ((p.1 : ℂ)) ^ e * pmf m k p.2 = ∫ z in a..b, (z : ℂ) ^ e * pm (D z) m k := by
  set f : ℝ × (ℝ × ℝ) → ℂ := fun p => ((p.1 : ℂ)) ^ e * pmf m k p.2 with hf
  have hint : IntegrableOn f S := ((continuous_Rsol_term e m k)).continuousOn.integrableOn_compact hS
  rw [← integral_indicator hS.measurableSet]
  have hint2 : Integrable (S.indicator f) := (integrable_indicator_iff hS.measurableSet).2 hint
  rw [Measure.volume_eq_prod] at hint2 ⊢
  rw [integral_prod _ hint2]
  have key : ∀ z : ℝ, ∫ q : ℝ × ℝ, S.indicator f (z, q)
      = (Set.Icc a b).indicator (fun z : ℝ => (z : ℂ) ^ e * pm (D z) m k) z := by
    intro z
    by_cases hz : z ∈ Set.Icc a b
    · rw [Set.indicator_of_mem hz]
      have : ∀ q : ℝ × ℝ, S.indicator f (z, q) = (D z).indicator (fun q => (z : ℂ) ^ e * pmf m k q) q := by
        intro q
        by_cases hq : q ∈ D z
        · rw [Set.indicator_of_mem hq, Set.indicator_of_mem ((h z q).2 ⟨hz, hq⟩)]
        · rw [Set.indicator_of_notMem hq, Set.indicator_of_notMem (fun c => hq ((h z q).1 c).2)]
      simp_rw [this]
      rw [integral_indicator (hD z), integral_const_mul, pm]
    · rw [Set.indicator_of_notMem hz]
      have : ∀ q : ℝ × ℝ, S.indicator f (z, q) = 0 := fun q =>
        Set.indicator_of_notMem (fun c => hz ((h z q).1 c).1) _
      simp [this]
  simp_rw [key]
  rw [integral_indicator measurableSet_Icc, integral_Icc_eq_integral_Ioc, ← intervalIntegral.integral_of_le hab]

theorem disc_measurable (R : ℝ) : MeasurableSet (disc R) :=
  (isClosed_le (f := fun p : ℝ × ℝ => p.1 ^ 2 + p.2 ^ 2) (by fun_prop) continuous_const).measurableSet

theorem pm_disc' (R : ℝ) (m k : ℕ) :
    pm (disc R) m k = if m = 0 then ((Real.pi * R ^ (2 * k + 2) / (k + 1) : ℝ) : ℂ) else 0 := by
  have h1 : disc R = disc |R| := by simp [disc]
  rw [h1, pm_disc |R| (abs_nonneg R)]
  split_ifs with h
  · congr 1
    rw [show 2 * k + 2 = 2 * (k + 1) by ring, pow_mul, sq_abs, ← pow_mul]
    have : (k : ℝ) + 1 ≠ 0 := by positivity
    field_simp
  · rfl

/-- The frustum in coordinates `(z, (x, y))`. -/
def frustumC (a b ra rb : ℝ) : Set (ℝ × (ℝ × ℝ)) :=
  {p | a ≤ p.1 ∧ p.1 ≤ b ∧ p.2.1 ^ 2 + p.2.2 ^ 2 ≤ (ra + (rb - ra) * ((p.1 - a) / (b - a))) ^ 2}

theorem frustumC_compact (a b ra rb : ℝ) (hab : a < b) : IsCompact (frustumC a b ra rb) := by
  have hd : 0 < b - a := by linarith
  refine IsCompact.of_isClosed_subset ((isCompact_Icc (a := a) (b := b)).prod
    ((isCompact_Icc (a := -(|ra| + |rb|)) (b := |ra| + |rb|)).prod
      (isCompact_Icc (a := -(|ra| + |rb|)) (b := |ra| + |rb|)))) ?_ ?_
  · refine IsClosed.inter (isClosed_le continuous_const continuous_fst) ?_
    refine IsClosed.inter (isClosed_le continuous_fst continuous_const) ?_
    exact isClosed_le (f := fun p : ℝ × (ℝ × ℝ) => p.2.1 ^ 2 + p.2.2 ^ 2)
      (g := fun p : ℝ × (ℝ × ℝ) => (ra + (rb - ra) * ((p.1 - a) / (b - a))) ^ 2) (by fun_prop) (by fun_prop)
  · rintro ⟨z, x, y⟩ ⟨h1, h2, h3⟩
    simp only at h1 h2 h3
    have e1 : 0 ≤ (z - a) / (b - a) := div_nonneg (by linarith) hd.le
    have e2 : (z - a) / (b - a) ≤ 1 := (div_le_one hd).2 (by linarith)
    have hR : |ra + (rb - ra) * ((z - a) / (b - a))| ≤ |ra| + |rb| := by
      have : ra + (rb - ra) * ((z - a) / (b - a)) = ra * (1 - (z - a) / (b - a)) + rb * ((z - a) / (b - a)) := by ring
      rw [this]
      refine (abs_add_le _ _).trans ?_
      rw [abs_mul, abs_mul, abs_of_nonneg e1, abs_of_nonneg (sub_nonneg.2 e2)]
      have := abs_nonneg ra
      have := abs_nonneg rb
      nlinarith
    have hx : |x| ≤ |ra| + |rb| := (sq_le_sq.1 (show x ^ 2 ≤ (ra + (rb - ra) * ((z - a) / (b - a))) ^ 2 by nlinarith [sq_nonneg y])).trans hR
    have hy : |y| ≤ |ra| + |rb| := (sq_le_sq.1 (show y ^ 2 ≤ (ra + (rb - ra) * ((z - a) / (b - a))) ^ 2 by nlinarith [sq_nonneg x])).trans hR
    exact ⟨⟨h1, h2⟩, abs_le.1 hx, abs_le.1 hy⟩

/-- `∫_a^{a+h} z^e (ra + (rb-ra)(z-a)/h)^n dz`. -/
noncomputable def coneM (a h ra rb : ℝ) (e n : ℕ) : ℝ :=
  ∑ i ∈ range (e + 1), (e.choose i : ℝ) * a ^ (e - i) *
    ∑ j ∈ range (n + 1), (n.choose j : ℝ) * (rb - ra) ^ j * ra ^ (n - j) * (h ^ (i + 1) / (i + j + 1))

theorem coneM_eq (a h ra rb : ℝ) (hh : 0 < h) (e n : ℕ) :
    ∫ z in a..(a + h), z ^ e * (ra + (rb - ra) * ((z - a) / h)) ^ n = coneM a h ra rb e n := by
  have hs := intervalIntegral.integral_comp_add_right (a := 0) (b := h)
    (fun z : ℝ => z ^ e * (ra + (rb - ra) * ((z - a) / h)) ^ n) a
  rw [zero_add, add_comm h a] at hs
  rw [← hs, coneM]
  have : ∀ x : ℝ, (x + a) ^ e * (ra + (rb - ra) * ((x + a - a) / h)) ^ n
      = ∑ i ∈ range (e + 1), ((e.choose i : ℝ) * a ^ (e - i)) * (x ^ i * (ra + (rb - ra) * (x / h)) ^ n) := by
    intro x
    rw [add_sub_cancel_right, add_pow, sum_mul]
    exact sum_congr rfl fun i _ => by ring
  simp_rw [this]
  rw [intervalIntegral.integral_finset_sum]
  swap
  · intro p _; exact Continuous.intervalIntegrable (by fun_prop) _ _
  refine sum_congr rfl fun i _ => ?_
  rw [intervalIntegral.integral_const_mul, lin_int ra rb h hh.ne']

theorem frustum_int (a h ra rb : ℝ) (hh : 0 < h) (l m : ℕ) (hm : m ≤ l) :
    ∫ v in frustum a (a + h) ra rb, solidS l m v
      = if m = 0 then ∑ k ∈ range (l / 2 + 1), ((Nlm l m * rc l 0 k * (Real.pi / (k + 1) * coneM a h ra rb (l - 2 * k) (2 * k + 2)) : ℝ) : ℂ)
        else 0 := by
  have hF : frustum a (a + h) ra rb = {v : V3 | (v 2, (v 0, v 1)) ∈ frustumC a (a + h) ra rb} := rfl
  have hc := frustumC_compact a (a + h) ra rb (by linarith)
  rw [hF, solid_int_expand l m hm _ hc]
  have hsec : ∀ e k : ℕ, ∫ p in frustumC a (a + h) ra rb, ((p.1 : ℂ)) ^ e * pmf m k p.2
      = if m = 0 then ((Real.pi / (k + 1) * coneM a h ra rb e (2 * k + 2) : ℝ) : ℂ) else 0 := by
    intro e k
    rw [sections_int _ hc a (a + h) (by linarith) (fun z => disc (ra + (rb - ra) * ((z - a) / h)))
      (fun z => disc_measurable _)]
    · simp_rw [pm_disc']
      split_ifs with h0
      · rw [← coneM_eq a h ra rb hh, ← intervalIntegral.integral_const_mul, ← intervalIntegral.integral_ofReal]
        refine intervalIntegral.integral_congr fun z _ => ?_
        push_cast; ring
      · simp
    · intro z q
      simp only [frustumC, disc, Set.mem_setOf_eq, Set.mem_Icc, add_sub_cancel_left, and_assoc]
  simp_rw [hsec]
  split_ifs with h0
  · subst h0
    refine sum_congr rfl fun k _ => ?_
    push_cast
    simp only [Nat.sub_zero]
  · simp

'''
for name,p,a,ra,rb in [('cone','con','(-(h / 2))','r2','r1'),('cone2','conTwo','0','r1','r2')]:
    params,helpers,res=cell_info(name)
    S=f'(frustum {a} ({a} + h) {ra} {rb})'
    bad={'con':(5,0),'conTwo':(2,0)}[p]
    for l in range(6):
        code=res[(l,0)]
        txt=' '.join(list(code['loc'].values())+[code['expr']])
        # helper fac has sqrt pi numerator: Nlm = c*[rad]/sqrt pi
        form,rads=hN(l,0,txt)
        o=f"theorem {p}_{l}0 (rho h r1 r2 : ℝ) (hh : 0 < h) :\n"
        if (l,0)==bad:
            if p=='con':
                o+=f"    QlmACH.conCell rho h r1 r2 5 0 = densityInner rho {S} 5 ((0 : ℕ) : ℤ)\n      - ((rho * Real.sqrt Real.pi * h ^ 2 * (r1 ^ 2 - r2 ^ 2) * (5 * (2 * r1 ^ 2 * r2 * (r1 - 1))) * Real.sqrt 11 / 896 : ℝ) : ℂ) := by\n"
            else:
                o+=f"    QlmACH.conTwoCell rho h r1 r2 2 0 = densityInner rho {S} 2 ((0 : ℕ) : ℤ)\n      - ((rho * Real.sqrt Real.pi * h * (3 * (r1 ^ 3 * r2 + 2 * r1 ^ 2 * r2 ^ 2)) / (24 * Real.sqrt 5) : ℝ) : ℂ) := by\n"
        else:
            o+=f"    QlmACH.{p}Cell rho h r1 r2 {l} 0 = densityInner rho {S} {l} ((0 : ℕ) : ℤ) := by\n"
        o+=NlmPf(l,0,form,rads)
        o+=f"  rw [densityInner, frustum_int {a} h {ra} {rb} hh {l} 0 (by norm_num), if_pos rfl, hN]\n"
        o+=f"  simp only [QlmACH.{p}Cell, QlmACH.{p}{l}0, coneM, rc, sum_range_succ, sum_range_zero, zero_add, Nat.reduceDiv, Nat.reduceAdd, Nat.reduceMul,\n    Nat.reduceSub, Nat.factorial, Nat.choose]\n"
        o+="  have hp : Real.sqrt Real.pi ≠ 0 := (Real.sqrt_pos.2 Real.pi_pos).ne'\n"
        for A in rads:
            if A!='Real.pi': o+=f"  have hs : Real.sqrt ({A}) ≠ 0 := (Real.sqrt_pos.2 (by positivity)).ne'\n"
        o+="  have hpi : Real.pi = Real.sqrt Real.pi ^ 2 := (Real.sq_sqrt Real.pi_pos.le).symm\n"
        o+="  generalize Real.sqrt Real.pi = Q at *\n  rw [hpi]\n  norm_cast\n  push_cast\n  field_simp\n  try ring\n\n"
        out+=o
    out+=f"""theorem {p}_pos (rho h r1 r2 : ℝ) (hh : 0 < h) (l m : ℕ) (hm : m ≤ l) (h0 : m ≠ 0) :
    QlmACH.{p}Cell rho h r1 r2 l m = densityInner rho {S} l (m : ℤ) := by
  rw [densityInner, frustum_int {a} h {ra} {rb} hh l m hm, if_neg h0, mul_zero]
  unfold QlmACH.{p}Cell
  split <;> first | rfl | (exact absurd rfl h0)

theorem {p}_high (rho h r1 r2 : ℝ) (l m : ℕ) (hl : 5 < l) : QlmACH.{p}Cell rho h r1 r2 l m = 0 := by
  obtain ⟨k, rfl⟩ : ∃ k, l = k + 6 := ⟨l - 6, by omega⟩
  rfl

"""
out+='end Newt.Ach\n'
open('/verif/lean/Verif/Proofs/AchCone.lean','w').write(out)
