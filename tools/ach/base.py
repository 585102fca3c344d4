from fractions import Fraction as Fr
from math import factorial as f
def rc(l,m,k): return Fr((-1)**(m+k),2**(m+2*k)*f(k)*f(m+k)*f(l-m-2*k))
def z(H,j):
    # zint = H^(j+1)/(2^j (j+1)) for even
    return None if j%2 else Fr(1,2**j*(j+1))
def fr(q): return f'{q.numerator}' if q.denominator==1 else f'{q.numerator} / {q.denominator}'
out='''import Verif.Proofs.QlmNum
import Verif.Proofs.QlmShapes2
import Verif.Proofs.BigAnnMatch
import Verif.Proofs.MpcShapes
import Verif.Model.QlmACH

/-! # Tables of low-degree moments: assembling them, and the integrals over prisms and cones term by term -/

namespace Newt

open MeasureTheory Finset Spec Qlm

/-- A table agreeing with a family up to degree 5 and empty above. -/
theorem table_eq (LMax : ℕ) (val : ℕ → ℕ → ℂ) (F : ℕ → ℤ → ℂ)
    (hsym : ∀ l m, F l (-m) = (-1) ^ m.natAbs * (starRingEnd ℂ) (F l m))
    (hout : ∀ l (m : ℤ), l < m.natAbs → F l m = 0)
    (h : ∀ l m : ℕ, m ≤ l → l ≤ 5 → val l m = F l m) (h5 : ∀ l m : ℕ, m ≤ l → 5 < l → val l m = 0) :
    QlmACH.table LMax val = Mom.ofFn LMax fun l m => if l ≤ 5 then F l m else 0 := by
  rw [QlmACH.table]
  apply Mom.ext_get
  intro l m hl hm
  rw [Mom.get_ofFn _ hl hm, Mom.get_ofFn _ hl hm, fill_gen _ val (fun l m => if l ≤ 5 then F l m else 0)]
  · rw [Mom.get_ofFn _ (by split_ifs <;> omega) (by split_ifs <;> omega)]
  · intro l m; split_ifs
    · exact hsym l m
    · simp
  · intro l m hm; split_ifs
    · exact hout l m hm
    · rfl
  · intro l m hm _
    split_ifs with h'
    · exact h l m hm h'
    · exact h5 l m hm (by omega)

theorem table_density (LMax : ℕ) (val : ℕ → ℕ → ℂ) (rho : ℝ) (S : Set V3)
    (h : ∀ l m : ℕ, m ≤ l → l ≤ 5 → val l m = densityInner rho S l m) (h5 : ∀ l m : ℕ, m ≤ l → 5 < l → val l m = 0) :
    QlmACH.table LMax val = Mom.ofFn LMax fun l m => if l ≤ 5 then densityInner rho S l m else 0 :=
  table_eq LMax val _ (densityInner_neg rho S) (fun l m hm => densityInner_out rho S l m hm) h h5

/-- Twenty-one cells make a table. -/
theorem cells21 (P : ℕ → ℕ → Prop)
'''
out+='    '+' '.join(f'(h{l}{m} : P {l} {m})' for l in range(6) for m in range(l+1))+' :\n    ∀ l m : ℕ, m ≤ l → l ≤ 5 → P l m := by\n  intro l m h1 h2\n  interval_cases l <;> interval_cases m <;> assumption\n\n'
out+='''theorem zint_val0 (H : ℝ) : zint H 0 = H := by rw [zint_even H 0 rfl]; push_cast; ring
theorem zint_val2 (H : ℝ) : zint H 2 = H ^ 3 / 12 := by rw [zint_even H 2 rfl]; push_cast; ring
theorem zint_val4 (H : ℝ) : zint H 4 = H ^ 5 / 80 := by rw [zint_even H 4 rfl]; push_cast; ring
theorem zint_val1 (H : ℝ) : zint H 1 = 0 := zint_odd H 1 rfl
theorem zint_val3 (H : ℝ) : zint H 3 = 0 := zint_odd H 3 rfl
theorem zint_val5 (H : ℝ) : zint H 5 = 0 := zint_odd H 5 rfl

'''
for l in range(6):
    for m in range(l+1):
        ts=[]
        for k in range((l-m)//2+1):
            e=l-m-2*k
            if e%2: continue
            c=rc(l,m,k)*z('H',e)
            ts.append(f'({fr(c)}) * (H : ℂ) ^ {e+1} * pm B {m} {k}')
        rhs='0' if not ts else f'(Nlm {l} (({m} : ℕ) : ℤ) : ℂ) * ('+' + '.join(ts)+')'
        out+=f'''theorem prismI_{l}{m} (H : ℝ) (hH : 0 < H) (B : Set (ℝ × ℝ)) (hB : IsCompact B) :
    ∫ v in prism H B, solidS {l} (({m} : ℕ) : ℤ) v = {rhs} := by
  rw [prism_int H hH B hB {l} {m} (by norm_num)]
  simp only [Nat.reduceSub, Nat.reduceDiv, Nat.reduceAdd, Nat.reduceMul, sum_range_succ, sum_range_zero, zero_add,
    zint_val0, zint_val1, zint_val2, zint_val3, zint_val4, zint_val5]
  simp only [rc]
  norm_num [Nat.factorial]
  try first | done | ring1 | (ring_nf; tauto)
  done

'''
# cones
for l in range(6):
    for m in range(l+1):
        ts=[]
        for k in range((l-m)//2+1):
            e=l-m-2*k; n=m+2*k+2
            c=rc(l,m,k)*Fr(f(e)*f(n),f(e+n+1))
            ts.append(f'({fr(c)}) * (P : ℂ) ^ {e+1} * pm B {m} {k}')
        out+=f'''theorem coneI_{l}{m} (P : ℝ) (hP : 0 < P) (B : Set (ℝ × ℝ)) (hB : IsCompact B) :
    ∫ v in coneOver P B, solidS {l} (({m} : ℕ) : ℤ) v = (Nlm {l} (({m} : ℕ) : ℤ) : ℂ) * ({' + '.join(ts)}) := by
  rw [cone_int P hP B hB {l} {m} (by norm_num)]
  simp only [Nat.reduceSub, Nat.reduceDiv, Nat.reduceAdd, Nat.reduceMul, sum_range_succ, sum_range_zero, zero_add,
    bint_eq P hP]
  simp only [rc]
  norm_num [Nat.factorial]
  try first | done | ring1 | (ring_nf; tauto)
  done

'''
out+='''/-! ## Normalisations -/

theorem Nlm_sq (l m : ℕ) (c : ℝ) (hm : m ≤ l) (hc : 0 ≤ c)
    (h : c ^ 2 * Real.pi = (2 * l + 1) / 4 * ((l + m).factorial * (l - m).factorial)) : Nlm l m = c := by
  have hp := Real.pi_pos
  rw [Nlm, show ((l : ℤ) + (m : ℤ)).toNat = l + m by omega, show ((l : ℤ) - (m : ℤ)).toNat = l - m by omega,
    ← Real.sqrt_sq hc]
  congr 1
  rw [eq_comm, ← mul_right_cancel_iff_of_pos hp, h]
  field_simp

theorem sqrt_four_pi : Real.sqrt (4 * Real.pi) = 2 * Real.sqrt Real.pi := sqrt_scale _ _ _ (by norm_num) (by ring)

theorem sqrt_cast_ne (a : ℝ) (ha : 0 < a) : ((Real.sqrt a : ℝ) : ℂ) ≠ 0 := by
  exact_mod_cast (Real.sqrt_pos.2 ha).ne'

theorem sqrt_pi_ne : ((Real.sqrt Real.pi : ℝ) : ℂ) ≠ 0 := sqrt_cast_ne _ Real.pi_pos

theorem Ipow5 : Complex.I ^ 5 = Complex.I := by
  rw [show (5 : ℕ) = 4 + 1 by norm_num, pow_succ, Complex.I_pow_four, one_mul]

'''
out+='end Newt\n'
open('/verif/lean/Verif/Proofs/AchBase.lean','w').write(out)
