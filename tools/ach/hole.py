from cells import *
out='''import Verif.Proofs.AchCone

/-! # Solids that are not prisms or cones: moments from the monomial integrals -/

namespace Newt.Ach

open MeasureTheory Finset Spec

/-- `∫ z^e x^a y^b` over a solid given in coordinates `(z, (x, y))`. -/
noncomputable def mon3 (S : Set (ℝ × (ℝ × ℝ))) (e a b : ℕ) : ℝ := ∫ p in S, p.1 ^ e * (p.2.1 ^ a * p.2.2 ^ b)

noncomputable def pS (S : Set (ℝ × (ℝ × ℝ))) (e m k : ℕ) : ℂ := ∫ p in S, ((p.1 : ℂ)) ^ e * pmf m k p.2

theorem solid_int_pS (l m : ℕ) (hm : m ≤ l) (S : Set (ℝ × (ℝ × ℝ))) (hS : IsCompact S) :
    ∫ v in {v : V3 | (v 2, (v 0, v 1)) ∈ S}, solidS l m v
      = ∑ k ∈ range ((l - m) / 2 + 1), ((Nlm l m * rc l m k : ℝ) : ℂ) * pS S (l - m - 2 * k) m k :=
  solid_int_expand l m hm S hS

theorem expands_solid (S : Set (ℝ × (ℝ × ℝ))) (hS : IsCompact S) (e : ℕ) :
    Expands (pS S e) (fun a b => ((mon3 S e a b : ℝ) : ℂ)) := by
  intro m k
  rw [pS]
  have h1 : ∀ p : ℝ × (ℝ × ℝ), (p.1 : ℂ) ^ e * pmf m k p.2 = ∑ i ∈ range (m + 1), ∑ j ∈ range (k + 1),
      ((m.choose i : ℂ) * (k.choose j : ℂ) * (-Complex.I) ^ i)
        * ((p.1 ^ e * (p.2.1 ^ (m + 2 * k - (2 * j + i)) * p.2.2 ^ (2 * j + i)) : ℝ) : ℂ) := by
    intro p
    rw [show p.2 = (p.2.1, p.2.2) from rfl, pmf_expand2, mul_sum]
    refine sum_congr rfl fun i _ => ?_
    rw [mul_sum]
    refine sum_congr rfl fun j _ => ?_
    push_cast; ring
  simp_rw [h1]
  have hI : ∀ i j : ℕ, IntegrableOn (fun p : ℝ × (ℝ × ℝ) => ((m.choose i : ℂ) * (k.choose j : ℂ) * (-Complex.I) ^ i)
        * ((p.1 ^ e * (p.2.1 ^ (m + 2 * k - (2 * j + i)) * p.2.2 ^ (2 * j + i)) : ℝ) : ℂ)) S := fun i j =>
    (Continuous.continuousOn (by fun_prop)).integrableOn_compact hS
  rw [integral_finset_sum _ (fun i _ => integrable_finset_sum _ fun j _ => hI i j)]
  refine sum_congr rfl fun i _ => ?_
  rw [integral_finset_sum _ (fun j _ => hI i j)]
  refine sum_congr rfl fun j _ => ?_
  rw [integral_const_mul, mon3, integral_complex_ofReal]

/-- Integrating over a solid section by section. -/
theorem sections_real (S : Set (ℝ × (ℝ × ℝ))) (hS : IsCompact S) (a b : ℝ) (hab : a ≤ b) (D : ℝ → Set (ℝ × ℝ))
    (hD : ∀ z, MeasurableSet (D z)) (h : ∀ z q, (z, q) ∈ S ↔ z ∈ Set.Icc a b ∧ q ∈ D z) (f : ℝ × (ℝ × ℝ) → ℝ)
    (hf : Continuous f) : ∫ p in S, f p = ∫ z in a..b, ∫ q in D z, f (z, q) := by
  have hint : IntegrableOn f S := hf.continuousOn.integrableOn_compact hS
  rw [← integral_indicator hS.measurableSet]
  have hint2 : Integrable (S.indicator f) := (integrable_indicator_iff hS.measurableSet).2 hint
  rw [Measure.volume_eq_prod] at hint2 ⊢
  rw [integral_prod _ hint2]
  have key : ∀ z : ℝ, ∫ q : ℝ × ℝ, S.indicator f (z, q)
      = (Set.Icc a b).indicator (fun z : ℝ => ∫ q in D z, f (z, q)) z := by
    intro z
    by_cases hz : z ∈ Set.Icc a b
    · rw [Set.indicator_of_mem hz]
      have : ∀ q : ℝ × ℝ, S.indicator f (z, q) = (D z).indicator (fun q => f (z, q)) q := by
        intro q
        by_cases hq : q ∈ D z
        · rw [Set.indicator_of_mem hq, Set.indicator_of_mem ((h z q).2 ⟨hz, hq⟩)]
        · rw [Set.indicator_of_notMem hq, Set.indicator_of_notMem (fun c => hq ((h z q).1 c).2)]
      simp_rw [this]
      rw [integral_indicator (hD z)]
    · rw [Set.indicator_of_notMem hz]
      have : ∀ q : ℝ × ℝ, S.indicator f (z, q) = 0 := fun q =>
        Set.indicator_of_notMem (fun c => hz ((h z q).1 c).1) _
      simp [this]
  simp_rw [key]
  rw [integral_indicator measurableSet_Icc, integral_Icc_eq_integral_Ioc, ← intervalIntegral.integral_of_le hab]

'''
for l,m in allPairs():
    ts=[]
    for k in range((l-m)//2+1):
        c=Fr((-1)**(m+k),2**(m+2*k)*f(k)*f(m+k)*f(l-m-2*k))
        ts.append(f"({fr(c)}) * pS S {l-m-2*k} {m} {k}")
    out+=f'''theorem solidI_{l}{m} (S : Set (ℝ × (ℝ × ℝ))) (hS : IsCompact S) :
    ∫ v in {{v : V3 | (v 2, (v 0, v 1)) ∈ S}}, solidS {l} (({m} : ℕ) : ℤ) v = (Nlm {l} (({m} : ℕ) : ℤ) : ℂ) * ({' + '.join(ts)}) := by
  rw [solid_int_pS {l} {m} (by norm_num) S hS]
  simp only [Nat.reduceSub, Nat.reduceDiv, Nat.reduceAdd, Nat.reduceMul, sum_range_succ, sum_range_zero, zero_add, rc]
  norm_num [Nat.factorial]
  try first | done | ring1 | (ring_nf; tauto)
  done

'''
out+='end Newt.Ach\n'
open('/verif/lean/Verif/Proofs/AchSolid.lean','w').write(out)
