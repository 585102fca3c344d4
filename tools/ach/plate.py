from gencells import *
CF['platehole']=dict(kind='solid',hyps='(rho t r theta : ℝ) (ht : 0 < t) (hr : 0 < r) (hc : 0 < Real.cos theta)',args='rho t r theta',S='(drilledPlate t r theta)',call='rho t r theta ht hr hc')
def gen2(name,cfg):
    params,helpers,res=cell_info(name); p=PFX[name]
    o=''
    for (l,m) in allPairs():
        code=res.get((l,m))
        kk=list(range((l-m)//2+1))
        o+=f"theorem {p}_{l}{m} {cfg['hyps']} :\n    QlmACH.{p}Cell {cfg['args']} {l} {m} = densityInner rho {cfg['S']} {l} (({m} : ℕ) : ℤ) := by\n"
        o+="  obtain ⟨d00, d10, d01, d20, d11, d02, d30, d21, d12, d03, d40, d31, d22, d13, d04, d50, d41, d32, d23, d14, d05⟩ := disc_vals r\n"
        o+="  have hC := plateC_compact t r theta hr hc\n"
        es=sorted({l-m-2*k for k in kk})
        for e in es: o+=f"  have hE{e} := expands_solid _ hC {e}\n"
        if code:
            txt=' '.join(list(code['loc'].values())+[code['expr']])
            form,rads=hN(l,m,txt)
            o+=NlmPf(l,m,form,rads)
        o+=f"  rw [densityInner, show drilledPlate t r theta = {{v : V3 | (v 2, (v 0, v 1)) ∈ plateC t r theta}} from rfl, solidI_{l}{m} _ hC, "+', '.join(f'pmX_{m}{k} hE{l-m-2*k}' for k in kk)+(', hN]\n' if code else ']\n')
        h=f"QlmACH.{p}{l}{m}, " if code else ''
        o+=f"  simp only [QlmACH.{p}Cell, {h}plate_mon t r theta ht hr hc, sum_range_succ, sum_range_zero, Nat.choose, Nat.reduceAdd, Nat.reduceSub, zero_add, add_zero,\n    zint_val0, zint_val1, zint_val2, zint_val3, zint_val4, zint_val5, d00, d10, d01, d20, d11, d02, d30, d21, d12, d03, d40, d31, d22, d13, d04, d50, d41, d32, d23, d14, d05]\n"
        if code:
            o+="  rw [sqrt_pi_sec theta hc]\n  have hp := sqrt_pi_ne\n"
            for A in rads:
                if A!='Real.pi': o+=f"  have hs := sqrt_cast_ne ({A}) (by positivity)\n"
            o+="  have hpi : (Real.pi : ℂ) = (Real.sqrt Real.pi : ℂ) ^ 2 := by rw [← Complex.ofReal_pow, Real.sq_sqrt Real.pi_pos.le]\n"
            o+="  have hU := one_add_tan_sq theta hc\n  generalize Real.tan theta = T at *\n  generalize 1 / Real.cos theta = U at *\n"
            o+="  have hU3 : U ^ 3 = U * (1 + T ^ 2) := by rw [← hU]; ring\n  have hU5 : U ^ 5 = U * (1 + T ^ 2) ^ 2 := by rw [← hU]; ring\n"
            o+="  try simp only [hU3, hU5]\n  push_cast\n  rw [hpi]\n  field_simp\n  first | done | ring1 | (ring_nf; simp only [Complex.I_sq, Complex.I_pow_three, Complex.I_pow_four, Ipow5]; ring)\n\n"
        else:
            o+="  push_cast\n  ring\n\n"
    return o
out='''import Verif.Proofs.AchPlateBase

/-! # platehole cells against the volume integrals -/

namespace Newt.Ach

open MeasureTheory Finset Spec

theorem one_add_tan_sq (theta : ℝ) (hc : 0 < Real.cos theta) : (1 / Real.cos theta) ^ 2 = 1 + Real.tan theta ^ 2 := by
  rw [Real.tan_eq_sin_div_cos]
  have := Real.sin_sq_add_cos_sq theta
  field_simp
  linarith

theorem sqrt_pi_sec (theta : ℝ) (hc : 0 < Real.cos theta) :
    Real.sqrt (Real.pi * (1 + Real.tan theta ^ 2)) = Real.sqrt Real.pi * (1 / Real.cos theta) := by
  rw [← one_add_tan_sq theta hc, Real.sqrt_mul Real.pi_pos.le, Real.sqrt_sq (by positivity)]

'''+gen2('platehole',CF['platehole'])+dispatch('platehole',CF['platehole'])+'end Newt.Ach\n'
open('/verif/lean/Verif/Proofs/AchPlate.lean','w').write(out)
